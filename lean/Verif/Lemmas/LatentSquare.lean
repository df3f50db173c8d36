import Verif.Lemmas.LatentRun

/-! The latent problems with the squared loss: existence of a minimiser, saddle states, convergence. -/

namespace Verif.Lemmas

open Verif.Model Verif.Spec Matrix Filter Topology

set_option autoImplicit false
set_option linter.unusedSectionVars false

variable {n : Type*} [Fintype n] [DecidableEq n] {J I : Type*} [Fintype J] [Fintype I]

/-- The families of positive semidefinite matrices. -/
def PsdFam (J n : Type*) : Set (J → Matrix n n ℝ) := {W | ∀ t, (W t).PosSemidef}

/-- The problem `c ‖S - R‖² + alpha |Z|_1 + psi(copies of Z) + tau tr(W) + phi(copies of W)`. -/
noncomputable def sqProb (ep : I → J) (S : J → Matrix n n ℝ) (c alpha tau : ℝ) (psi phi : (I → Matrix n n ℝ) → ℝ) :
    LProb J I n where
  ep := ep
  DR := Set.univ
  grad := fun R => (2 * c) • (R - S)
  g := fun Z => alpha * ∑ t, absSumMat (Z t)
  h := fun W => tau * ∑ t, trace (W t)
  DW := PsdFam J n
  psi := psi
  phi := phi

/-- The penalties of a pair `(K, L)`. -/
def latPen (ep : I → J) (alpha tau : ℝ) (psi phi : (I → Matrix n n ℝ) → ℝ)
    (p : (J → Matrix n n ℝ) × (J → Matrix n n ℝ)) : ℝ :=
  (alpha * ∑ t, absSumMat (p.1 t) + psi (pull ep p.1)) + (tau * ∑ t, trace (p.2 t) + phi (pull ep p.2))

/-- The objective with the squared loss. -/
def sqObj (ep : I → J) (S : J → Matrix n n ℝ) (c alpha tau : ℝ) (psi phi : (I → Matrix n n ℝ) → ℝ)
    (p : (J → Matrix n n ℝ) × (J → Matrix n n ℝ)) : ℝ :=
  c * famSq (S - (p.1 - p.2)) + latPen ep alpha tau psi phi p

theorem famSq_sub (A B : J → Matrix n n ℝ) : famSq (A - B) = famSq A - 2 * famIn A B + famSq B := by
  rw [← famIn_self, famIn_sub_left, famIn_sub_right, famIn_sub_right, famIn_comm B A, famIn_self, famIn_self]
  ring

theorem famSq_add (A B : J → Matrix n n ℝ) : famSq (A + B) = famSq A + 2 * famIn A B + famSq B := by
  rw [← famIn_self, famIn_add_left, famIn_add_right, famIn_add_right, famIn_comm B A, famIn_self, famIn_self]
  ring

theorem famSq_smul (c : ℝ) (A : J → Matrix n n ℝ) : famSq (c • A) = c ^ 2 * famSq A := by
  rw [← famIn_self, famIn_smul_left, famIn_smul_right, famIn_self]
  ring

theorem famSq_neg (A : J → Matrix n n ℝ) : famSq (-A) = famSq A := by
  have := famSq_smul (-1) A
  rw [neg_one_smul] at this
  rw [this]; ring

theorem famAbs_nonneg (Z : J → Matrix n n ℝ) : 0 ≤ ∑ t, absSumMat (Z t) :=
  Finset.sum_nonneg fun _ _ => Finset.sum_nonneg fun _ _ => Finset.sum_nonneg fun _ _ => abs_nonneg _

theorem frobSq_le_absSum_sq (A : Matrix n n ℝ) : frobSq A ≤ absSumMat A ^ 2 := by
  have h : ∀ i j, |A i j| ≤ absSumMat A := fun i j =>
    (Finset.single_le_sum (f := fun j => |A i j|) (fun _ _ => abs_nonneg _) (Finset.mem_univ j)).trans
      (Finset.single_le_sum (f := fun i => ∑ j, |A i j|) (fun _ _ => Finset.sum_nonneg fun _ _ => abs_nonneg _)
        (Finset.mem_univ i))
  have : frobSq A ≤ ∑ i, ∑ j, |A i j| * absSumMat A := by
    unfold frobSq
    refine Finset.sum_le_sum fun i _ => Finset.sum_le_sum fun j _ => ?_
    rw [← sq_abs, sq]
    exact mul_le_mul_of_nonneg_left (h i j) (abs_nonneg _)
  refine this.trans (le_of_eq ?_)
  have e : ∀ x : ℝ, ∑ i, ∑ j, |A i j| * x = absSumMat A * x := by
    intro x
    unfold absSumMat
    rw [Finset.sum_mul]
    exact Finset.sum_congr rfl fun i _ => by rw [Finset.sum_mul]
  rw [e, sq]

theorem famSq_le_famAbs_sq (Z : J → Matrix n n ℝ) : famSq Z ≤ (∑ t, absSumMat (Z t)) ^ 2 := by
  have hn : ∀ t, 0 ≤ absSumMat (Z t) := fun t =>
    Finset.sum_nonneg fun _ _ => Finset.sum_nonneg fun _ _ => abs_nonneg _
  have h : famSq Z ≤ ∑ t, absSumMat (Z t) * ∑ t, absSumMat (Z t) := by
    refine Finset.sum_le_sum fun t _ => (frobSq_le_absSum_sq _).trans ?_
    rw [sq]
    exact mul_le_mul_of_nonneg_left (Finset.single_le_sum (f := fun t => absSumMat (Z t)) (fun t _ => hn t)
      (Finset.mem_univ t)) (hn t)
  rw [← Finset.sum_mul, ← sq] at h
  exact h

theorem continuous_famSq : Continuous (famSq : (J → Matrix n n ℝ) → ℝ) := by
  have hproj : ∀ t : J, Continuous fun W : J → Matrix n n ℝ => W t := fun t => continuous_apply t
  unfold famSq frobSq
  exact continuous_finsetSum _ fun t _ => continuous_finsetSum _ fun i _ => continuous_finsetSum _ fun j _ =>
    ((hproj t).matrix_elem i j).pow 2

theorem continuous_famAbs : Continuous fun Z : J → Matrix n n ℝ => ∑ t, absSumMat (Z t) := by
  have hproj : ∀ t : J, Continuous fun W : J → Matrix n n ℝ => W t := fun t => continuous_apply t
  unfold absSumMat
  exact continuous_finsetSum _ fun t _ => continuous_finsetSum _ fun i _ => continuous_finsetSum _ fun j _ =>
    ((hproj t).matrix_elem i j).abs

theorem continuous_famTrace : Continuous fun Z : J → Matrix n n ℝ => ∑ t, trace (Z t) :=
  continuous_finsetSum _ fun t _ => (continuous_apply t : Continuous fun Z : J → Matrix n n ℝ => Z t).matrix_trace

theorem isClosed_psdFam : IsClosed (PsdFam J n) := by
  have hproj : ∀ t : J, Continuous fun W : J → Matrix n n ℝ => W t := fun t => continuous_apply t
  have e : PsdFam J n = ⋂ t, ({W : J → Matrix n n ℝ | (W t)ᵀ = W t} ∩
      ⋂ x : n → ℝ, {W : J → Matrix n n ℝ | 0 ≤ x ⬝ᵥ (W t *ᵥ x)}) := by
    ext W
    simp only [Set.mem_iInter, Set.mem_inter_iff, Set.mem_ofPred_eq]
    refine forall_congr' fun t => ⟨fun h => ⟨h.isSymm'.eq, fun x => ?_⟩, fun h => ?_⟩
    · have := (posSemidef_iff_dotProduct_mulVec.mp h).2 x
      rwa [star_trivial] at this
    · refine posSemidef_iff_dotProduct_mulVec.mpr ⟨?_, fun x => ?_⟩
      · rw [IsHermitian, conjTranspose_eq_transpose_of_trivial]; exact h.1
      · rw [star_trivial]; exact h.2 x
  rw [e]
  refine isClosed_iInter fun t => IsClosed.inter (isClosed_eq (hproj t).matrix_transpose (hproj t))
    (isClosed_iInter fun x => isClosed_le continuous_const ?_)
  exact Continuous.dotProduct continuous_const ((hproj t).matrix_mulVec continuous_const)

theorem psdFam_convex : ∀ x ∈ PsdFam J n, ∀ y ∈ PsdFam J n, ∀ t : ℝ, 0 ≤ t → t ≤ 1 → x + t • (y - x) ∈ PsdFam J n := by
  intro x hx y hy t h0 h1 i
  have e : (x + t • (y - x)) i = (1 - t) • x i + t • y i := by
    simp only [Pi.add_apply, Pi.smul_apply, Pi.sub_apply]
    module
  rw [e]
  exact ((hx i).smul (by linarith)).add ((hy i).smul h0)

theorem convexFam_abs {alpha : ℝ} (hal : 0 ≤ alpha) :
    ConvexFam fun Z : J → Matrix n n ℝ => alpha * ∑ t, absSumMat (Z t) := by
  intro X Y t h0 h1
  simp only
  have : ∑ i, absSumMat ((X + t • (Y - X)) i) ≤ ∑ i, ((1 - t) * absSumMat (X i) + t * absSumMat (Y i)) :=
    Finset.sum_le_sum fun i _ => absSumMat_convexPen (X i) (Y i) t h0 h1
  rw [Finset.sum_add_distrib, ← Finset.mul_sum, ← Finset.mul_sum] at this
  have := mul_le_mul_of_nonneg_left this hal
  linarith

theorem convexFam_trace (tau : ℝ) : ConvexFam fun Z : J → Matrix n n ℝ => tau * ∑ t, trace (Z t) := by
  intro X Y t h0 h1
  simp only
  refine le_of_eq ?_
  have : ∑ i, trace ((X + t • (Y - X)) i) = (1 - t) * ∑ i, trace (X i) + t * ∑ i, trace (Y i) := by
    rw [Finset.mul_sum, Finset.mul_sum, ← Finset.sum_add_distrib]
    refine Finset.sum_congr rfl fun i _ => ?_
    simp only [Pi.add_apply, Pi.smul_apply, Pi.sub_apply, trace_add, trace_smul, trace_sub, smul_eq_mul]
    ring
  rw [this]; ring

theorem latPen_nonneg {ep : I → J} {alpha tau : ℝ} (hta : 0 ≤ tau)
    {psi phi : (I → Matrix n n ℝ) → ℝ} (ppsi : ∀ Y, 0 ≤ psi Y) (pphi : ∀ Y, 0 ≤ phi Y)
    {p : (J → Matrix n n ℝ) × (J → Matrix n n ℝ)} (hp : p.2 ∈ PsdFam J n) :
    alpha * ∑ t, absSumMat (p.1 t) ≤ latPen ep alpha tau psi phi p := by
  have h1 : 0 ≤ tau * ∑ t, trace (p.2 t) := mul_nonneg hta (Finset.sum_nonneg fun t _ => (hp t).trace_nonneg)
  have h2 := ppsi (pull ep p.1)
  have h3 := pphi (pull ep p.2)
  unfold latPen
  linarith

theorem continuous_latPen (ep : I → J) (alpha tau : ℝ) {psi phi : (I → Matrix n n ℝ) → ℝ} (hpsi : Continuous psi)
    (hphi : Continuous phi) : Continuous (latPen (n := n) ep alpha tau psi phi) := by
  unfold latPen
  exact ((continuous_const.mul (continuous_famAbs.comp continuous_fst)).add
    (hpsi.comp ((continuous_pull ep).comp continuous_fst))).add
    ((continuous_const.mul (continuous_famTrace.comp continuous_snd)).add
    (hphi.comp ((continuous_pull ep).comp continuous_snd)))

/-- The problem with the squared loss has a minimiser. -/
theorem sq_exists_min (ep : I → J) (S : J → Matrix n n ℝ) {c alpha tau : ℝ} (hc : 0 < c) (hal : 0 < alpha)
    (hta : 0 ≤ tau) {psi phi : (I → Matrix n n ℝ) → ℝ} (ppsi : ∀ Y, 0 ≤ psi Y) (pphi : ∀ Y, 0 ≤ phi Y)
    (hpsi : Continuous psi) (hphi : Continuous phi) :
    ∃ p, IsMin {p | p.2 ∈ PsdFam J n} (sqObj ep S c alpha tau psi phi) p := by
  set F := sqObj ep S c alpha tau psi phi with hF
  have hcont : Continuous F := by
    rw [hF]
    unfold sqObj
    exact (continuous_const.mul (continuous_famSq.comp
      (continuous_const.sub (continuous_fst.sub continuous_snd)))).add (continuous_latPen ep alpha tau hpsi hphi)
  set b := F (0, 0) with hb
  set B1 := (b / alpha) ^ 2 with hB1
  set B2 := 2 * B1 + 2 * (2 * (b / c) + 2 * famSq S) with hB2
  have h0 : (0 : J → Matrix n n ℝ) ∈ PsdFam J n := fun t => PosSemidef.zero
  have bound : ∀ p : (J → Matrix n n ℝ) × (J → Matrix n n ℝ), p.2 ∈ PsdFam J n → F p ≤ b →
      famSq (p.1 - 0) ≤ B1 ∧ famSq (p.2 - 0) ≤ B2 := by
    intro p hp hle
    have h1 := latPen_nonneg (ep := ep) (alpha := alpha) hta ppsi pphi hp
    have h2 := famAbs_nonneg p.1
    have h3 := famSq_nonneg (S - (p.1 - p.2))
    have h4 : F p = c * famSq (S - (p.1 - p.2)) + latPen ep alpha tau psi phi p := rfl
    have h5 : 0 ≤ c * famSq (S - (p.1 - p.2)) := mul_nonneg hc.le h3
    have h6 : ∑ t, absSumMat (p.1 t) ≤ b / alpha := by
      rw [le_div_iff₀ hal, mul_comm]; linarith
    have h7 : famSq (S - (p.1 - p.2)) ≤ b / c := by
      rw [le_div_iff₀ hc, mul_comm]
      have := mul_nonneg hal.le h2
      linarith
    have h8 : famSq p.1 ≤ B1 := (famSq_le_famAbs_sq p.1).trans (pow_le_pow_left₀ h2 h6 2)
    rw [sub_zero, sub_zero]
    refine ⟨h8, ?_⟩
    have e : p.2 = p.1 + ((S - (p.1 - p.2)) + -S) := by abel
    have h9 := famSq_le_of_add (A := p.1) (B := (S - (p.1 - p.2)) + -S)
    have h10 := famSq_le_of_add (A := S - (p.1 - p.2)) (B := -S)
    rw [← e] at h9
    rw [famSq_neg] at h10
    rw [hB2]
    linarith
  have hcomp : IsCompact (({A : J → Matrix n n ℝ | famSq (A - 0) ≤ B1} ×ˢ
      ({A : J → Matrix n n ℝ | famSq (A - 0) ≤ B2} ∩ PsdFam J n))) :=
    (isCompact_famBall 0 B1).prod ((isCompact_famBall 0 B2).inter_right isClosed_psdFam)
  obtain ⟨p, hp, hmin⟩ := hcomp.exists_isMinOn
    ⟨((0 : J → Matrix n n ℝ), (0 : J → Matrix n n ℝ)), (bound (0, 0) h0 le_rfl).1, (bound (0, 0) h0 le_rfl).2, h0⟩ hcont.continuousOn
  refine ⟨p, hp.2.2, fun q hq => ?_⟩
  have hq' : q.2 ∈ PsdFam J n := hq
  by_cases hle : F q ≤ b
  · have h1 := bound q hq' hle
    exact hmin (show q ∈ _ from ⟨h1.1, h1.2, hq'⟩)
  · have h1 := bound (0, 0) h0 le_rfl
    have h2 : F p ≤ F (0, 0) := hmin (show ((0 : J → Matrix n n ℝ), (0 : J → Matrix n n ℝ)) ∈ _ from ⟨h1.1, h1.2, h0⟩)
    exact h2.trans (not_le.mp hle).le

theorem nonneg_of_quadratic {A B : ℝ} (h : ∀ t : ℝ, 0 < t → t ≤ 1 → 0 ≤ t * A + t ^ 2 * B) : 0 ≤ A := by
  by_contra hA
  rw [not_le] at hA
  set t := min 1 (-A / (2 * (|B| + 1))) with ht
  have hB : 0 < |B| + 1 := by positivity
  have h1 : 0 < -A / (2 * (|B| + 1)) := div_pos (by linarith) (by positivity)
  have h2 : 0 < t := lt_min one_pos h1
  have h3 := h t h2 (min_le_left _ _)
  have h4 : 0 ≤ A + t * B := by
    have : t * A + t ^ 2 * B = t * (A + t * B) := by ring
    rw [this] at h3
    exact nonneg_of_mul_nonneg_right h3 h2
  have h5 : t * B ≤ -A / 2 := by
    have h6 : t * B ≤ t * (|B| + 1) := mul_le_mul_of_nonneg_left ((le_abs_self B).trans (by linarith)) h2.le
    have h7 : t * (|B| + 1) ≤ -A / (2 * (|B| + 1)) * (|B| + 1) :=
      mul_le_mul_of_nonneg_right (min_le_right _ _) hB.le
    have h8 : -A / (2 * (|B| + 1)) * (|B| + 1) = -A / 2 := by field_simp
    linarith
  linarith

/-- The first-order conditions of a minimiser. -/
theorem sq_first_order {ep : I → J} {S : J → Matrix n n ℝ} {c alpha tau : ℝ} (hal : 0 ≤ alpha)
    {psi phi : (I → Matrix n n ℝ) → ℝ} (cpsi : ConvexFam psi) (cphi : ConvexFam phi)
    {p : (J → Matrix n n ℝ) × (J → Matrix n n ℝ)} (hp : IsMin {p | p.2 ∈ PsdFam J n} (sqObj ep S c alpha tau psi phi) p) :
    (∀ Y, alpha * ∑ t, absSumMat (p.1 t) + psi (pull ep p.1) + 2 * c * famIn (S - (p.1 - p.2)) (Y - p.1) ≤
      alpha * ∑ t, absSumMat (Y t) + psi (pull ep Y)) ∧
    (∀ Y ∈ PsdFam J n, tau * ∑ t, trace (p.2 t) + phi (pull ep p.2) - 2 * c * famIn (S - (p.1 - p.2)) (Y - p.2) ≤
      tau * ∑ t, trace (Y t) + phi (pull ep Y)) := by
  have hpm : p.2 ∈ PsdFam J n := hp.1
  constructor
  · intro Y
    have key := nonneg_of_quadratic (A := alpha * ∑ t, absSumMat (Y t) + psi (pull ep Y)
      - (alpha * ∑ t, absSumMat (p.1 t) + psi (pull ep p.1)) - 2 * c * famIn (S - (p.1 - p.2)) (Y - p.1))
      (B := c * famSq (Y - p.1)) (fun t h0 h1 => by
        have h2 := hp.2 (p.1 + t • (Y - p.1), p.2) hpm
        have h3 := convexFam_abs hal p.1 Y t h0.le h1
        have h4 := cpsi (pull ep p.1) (pull ep Y) t h0.le h1
        have e4 : pull ep p.1 + t • (pull ep Y - pull ep p.1) = pull ep (p.1 + t • (Y - p.1)) := rfl
        rw [e4] at h4
        have e5 : S - (p.1 + t • (Y - p.1) - p.2) = S - (p.1 - p.2) - t • (Y - p.1) := by abel
        have e6 : famSq (S - (p.1 + t • (Y - p.1) - p.2)) = famSq (S - (p.1 - p.2))
            - 2 * (t * famIn (S - (p.1 - p.2)) (Y - p.1)) + t ^ 2 * famSq (Y - p.1) := by
          rw [e5, famSq_sub, famIn_smul_right, famSq_smul]
        unfold sqObj latPen at h2
        simp only at h2 h3
        rw [e6] at h2
        linarith)
    linarith
  · intro Y hY
    have key := nonneg_of_quadratic (A := tau * ∑ t, trace (Y t) + phi (pull ep Y)
      - (tau * ∑ t, trace (p.2 t) + phi (pull ep p.2)) + 2 * c * famIn (S - (p.1 - p.2)) (Y - p.2))
      (B := c * famSq (Y - p.2)) (fun t h0 h1 => by
        have h2 := hp.2 (p.1, p.2 + t • (Y - p.2)) (psdFam_convex _ hpm _ hY t h0.le h1)
        have h3 := convexFam_trace tau p.2 Y t h0.le h1
        have h4 := cphi (pull ep p.2) (pull ep Y) t h0.le h1
        have e4 : pull ep p.2 + t • (pull ep Y - pull ep p.2) = pull ep (p.2 + t • (Y - p.2)) := rfl
        rw [e4] at h4
        have e5 : S - (p.1 - (p.2 + t • (Y - p.2))) = S - (p.1 - p.2) + t • (Y - p.2) := by abel
        have e6 : famSq (S - (p.1 - (p.2 + t • (Y - p.2)))) = famSq (S - (p.1 - p.2))
            + 2 * (t * famIn (S - (p.1 - p.2)) (Y - p.2)) + t ^ 2 * famSq (Y - p.2) := by
          rw [e5, famSq_add, famIn_smul_right, famSq_smul]
        unfold sqObj latPen at h2
        simp only at h2 h3
        rw [e6] at h2
        linarith)
    linarith

/-- The penalties at a stationary state, against any competitor with PSD latent part. -/
theorem LPass.penalties {p : LProb J I n} {rho : ℝ} {a : LSt J I n} (h : LPass p rho a a) :
    a.R = a.Z - a.W ∧ ∀ K L, L ∈ p.DW →
      (p.g a.Z + p.psi (pull p.ep a.Z)) + (p.h a.W + p.phi (pull p.ep a.W))
        + rho * famIn a.X ((K - L) - (a.Z - a.W)) ≤
      (p.g K + p.psi (pull p.ep K)) + (p.h L + p.phi (pull p.ep L)) := by
  have hR : a.R = a.Z - a.W := by
    have := h.x
    rw [left_eq_add] at this
    rw [sub_add, sub_eq_zero] at this
    exact this
  have hZP : a.ZP = pull p.ep a.Z := by
    have := h.xp
    rw [left_eq_add, sub_eq_zero] at this
    exact this.symm
  have hWP : a.WP = pull p.ep a.W := by
    have := h.up
    rw [left_eq_add, sub_eq_zero] at this
    exact this.symm
  refine ⟨hR, fun K L hL => ?_⟩
  have z := h.z K
  have zp := h.zp (pull p.ep K)
  have w := h.w L hL
  have wp := h.wp (pull p.ep L)
  simp only [sub_self, sub_zero, add_zero] at z w
  rw [hZP, ← pull_sub] at zp
  rw [hWP, ← pull_sub] at wp
  have e : famIn a.X ((K - L) - (a.Z - a.W)) = famIn a.X (K - a.Z) - famIn a.X (L - a.W) := by
    rw [← famIn_sub_right]; congr 1; abel
  rw [e]
  linarith

/-- A stationary state of the problem with the squared loss is a minimiser; all minimisers share `K - L`. -/
theorem sq_min_of_pass {ep : I → J} {S : J → Matrix n n ℝ} {c alpha tau : ℝ} (hc : 0 < c)
    {psi phi : (I → Matrix n n ℝ) → ℝ} {rho : ℝ} {a : LSt J I n}
    (h : LPass (sqProb ep S c alpha tau psi phi) rho a a) :
    IsMin {p | p.2 ∈ PsdFam J n} (sqObj ep S c alpha tau psi phi) (a.Z, a.W) ∧
    ∀ q, IsMin {p | p.2 ∈ PsdFam J n} (sqObj ep S c alpha tau psi phi) q → q.1 - q.2 = a.Z - a.W := by
  obtain ⟨hR, hpen⟩ := h.penalties
  have hW : a.W ∈ PsdFam J n := h.memW
  have key : ∀ q : (J → Matrix n n ℝ) × (J → Matrix n n ℝ), q.2 ∈ PsdFam J n →
      sqObj ep S c alpha tau psi phi (a.Z, a.W) + c * famSq ((q.1 - q.2) - (a.Z - a.W)) ≤
        sqObj ep S c alpha tau psi phi q := by
    intro q hq
    have h1 := hpen q.1 q.2 hq
    have h2 := h.r (q.1 - q.2) trivial
    rw [hR] at h2
    simp only [sub_self, sub_zero, add_zero] at h2
    change famIn ((2 * c) • (a.Z - a.W - S) + rho • a.X) (q.1 - q.2 - (a.Z - a.W)) = 0 at h2
    rw [famIn_add_left, famIn_smul_left, famIn_smul_left] at h2
    have e : S - (q.1 - q.2) = -(a.Z - a.W - S) - ((q.1 - q.2) - (a.Z - a.W)) := by abel
    have e2 : S - (a.Z - a.W) = -(a.Z - a.W - S) := by abel
    change (alpha * ∑ t, absSumMat (a.Z t) + psi (pull ep a.Z)) + (tau * ∑ t, trace (a.W t) + phi (pull ep a.W))
      + rho * famIn a.X (q.1 - q.2 - (a.Z - a.W)) ≤ (alpha * ∑ t, absSumMat (q.1 t) + psi (pull ep q.1))
      + (tau * ∑ t, trace (q.2 t) + phi (pull ep q.2)) at h1
    unfold sqObj latPen
    simp only
    rw [e, e2, famSq_sub (-(a.Z - a.W - S)), famSq_neg, famIn_neg_left]
    linarith
  refine ⟨⟨hW, fun q hq => ?_⟩, fun q hq => ?_⟩
  · have h1 := key q hq
    have h2 := mul_nonneg hc.le (famSq_nonneg ((q.1 - q.2) - (a.Z - a.W)))
    linarith
  · have h1 := key q hq.1
    have h2 := hq.2 (a.Z, a.W) hW
    have h3 := famSq_nonneg ((q.1 - q.2) - (a.Z - a.W))
    have h4 : famSq ((q.1 - q.2) - (a.Z - a.W)) = 0 := by
      have : c * famSq ((q.1 - q.2) - (a.Z - a.W)) ≤ 0 := by linarith
      nlinarith
    funext t
    ext i j
    have h5 := famSq_entry ((q.1 - q.2) - (a.Z - a.W)) t i j
    rw [h4] at h5
    have h6 := pow_eq_zero_iff (two_ne_zero) |>.mp (le_antisymm h5 (sq_nonneg _))
    have h7 : (q.1 - q.2) t i j - (a.Z - a.W) t i j = 0 := h6
    linarith

/-- Passes with the squared loss converge to a minimiser for `rho < 4 c`. -/
theorem sq_main {ep : I → J} {S : J → Matrix n n ℝ} {c alpha tau : ℝ} (hc : 0 < c) (hal : 0 < alpha) (hta : 0 ≤ tau)
    {psi phi : (I → Matrix n n ℝ) → ℝ} (ppsi : ∀ Y, 0 ≤ psi Y) (pphi : ∀ Y, 0 ≤ phi Y)
    (hpsi : Continuous psi) (hphi : Continuous phi) (cpsi : ConvexFam psi) (cphi : ConvexFam phi)
    {rho : ℝ} (hr : 0 < rho) (hrc : rho < 4 * c) {s : ℕ → LSt J I n}
    (hs : ∀ j, LPass (sqProb ep S c alpha tau psi phi) rho (s j) (s (j + 1))) :
    ∃ a, LPass (sqProb ep S c alpha tau psi phi) rho a a ∧
      Tendsto (fun j => (s j).R) atTop (𝓝 a.R) ∧ LTends s (fun j => j) a := by
  obtain ⟨p, hp⟩ := sq_exists_min ep S hc hal hta ppsi pphi hpsi hphi
  obtain ⟨f1, f2⟩ := sq_first_order hal.le cpsi cphi hp
  set X : J → Matrix n n ℝ := (2 * c / rho) • (S - (p.1 - p.2)) with hX
  have eX : ∀ D, rho * famIn X D = 2 * c * famIn (S - (p.1 - p.2)) D := by
    intro D
    rw [hX, famIn_smul_left]
    field_simp
  obtain ⟨XP, UP, hst⟩ := latent_saddle (p := sqProb ep S c alpha tau psi phi) (rho := rho) (Z := p.1) (W := p.2)
    (X := X) hr (convexFam_abs hal.le) (convexFam_trace tau) cpsi cphi psdFam_convex trivial
    (fun Y _ => by
      change famIn ((2 * c) • (p.1 - p.2 - S) + rho • X) (Y - (p.1 - p.2)) = 0
      rw [famIn_add_left, famIn_smul_left rho, eX, famIn_smul_left]
      have : S - (p.1 - p.2) = -(p.1 - p.2 - S) := by abel
      rw [this, famIn_neg_left]; ring)
    (fun Y => by rw [eX]; exact f1 Y) hp.1 (fun Y hY => by rw [eX]; exact f2 Y hY)
  obtain ⟨a, h1, -, h2, h3⟩ := latent_converges (mu := 2 * c) hr (by linarith) hs hst (fun j => by
      set D := (s (j + 1)).R - (p.1 - p.2) with hD
      have e : (sqProb ep S c alpha tau psi phi).grad (s (j + 1)).R -
          (sqProb ep S c alpha tau psi phi).grad (p.1 - p.2) = (2 * c) • D := by
        change (2 * c) • ((s (j + 1)).R - S) - (2 * c) • (p.1 - p.2 - S) = _
        rw [← smul_sub, sub_sub_sub_cancel_right]
      change 2 * c * famSq D ≤ famIn ((sqProb ep S c alpha tau psi phi).grad (s (j + 1)).R -
          (sqProb ep S c alpha tau psi phi).grad (p.1 - p.2)) D
      rw [e, famIn_smul_left, famIn_self])
    (continuous_const.mul continuous_famAbs) (continuous_const.mul continuous_famTrace) hpsi hphi isClosed_psdFam
    (by
      have : Continuous (sqProb ep S c alpha tau psi phi).grad := by
        change Continuous fun R : J → Matrix n n ℝ => (2 * c) • (R - S)
        exact (continuous_id.sub continuous_const).const_smul (2 * c)
      exact this.continuousAt)
  exact ⟨a, h1, h2, h3⟩

end Verif.Lemmas
