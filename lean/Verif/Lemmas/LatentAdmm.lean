import Verif.Lemmas.RidgeAdmm

/-! The alternating method of the latent variable solvers: five blocks `R`, `Z`, copies of `Z`, `W`, copies of `W`
updated one after the other, with the constraints `R = Z - W` and "a copy equals what it copies". With a strongly
monotone first block and a penalty below twice the modulus the passes converge. -/

namespace Verif.Lemmas

open Verif.Model Verif.Spec Matrix Filter Topology

set_option autoImplicit false
set_option linter.unusedSectionVars false

variable {n : Type*} [Fintype n] [DecidableEq n] {J I : Type*} [Fintype J] [Fintype I]

/-! ### Inner product of two families -/

/-- `∑_j <A_j, B_j>`. -/
def famIn (A B : J → Matrix n n ℝ) : ℝ := ∑ j, frobInner (A j) (B j)

/-- `∑_j ‖A_j‖²`. -/
def famSq (A : J → Matrix n n ℝ) : ℝ := ∑ j, frobSq (A j)

theorem famIn_comm (A B : J → Matrix n n ℝ) : famIn A B = famIn B A :=
  Finset.sum_congr rfl fun _ _ => frobInner_comm _ _

theorem famIn_add_left (A B C : J → Matrix n n ℝ) : famIn (A + B) C = famIn A C + famIn B C := by
  unfold famIn
  rw [← Finset.sum_add_distrib]
  exact Finset.sum_congr rfl fun t _ => by rw [Pi.add_apply, frobInner_add_left]

theorem famIn_add_right (A B C : J → Matrix n n ℝ) : famIn A (B + C) = famIn A B + famIn A C := by
  rw [famIn_comm, famIn_add_left, famIn_comm B, famIn_comm C]

theorem famIn_sub_left (A B C : J → Matrix n n ℝ) : famIn (A - B) C = famIn A C - famIn B C := by
  unfold famIn
  rw [← Finset.sum_sub_distrib]
  exact Finset.sum_congr rfl fun t _ => by rw [Pi.sub_apply, frobInner_sub_left]

theorem famIn_sub_right (A B C : J → Matrix n n ℝ) : famIn A (B - C) = famIn A B - famIn A C := by
  rw [famIn_comm, famIn_sub_left, famIn_comm B, famIn_comm C]

theorem famIn_smul_left (c : ℝ) (A B : J → Matrix n n ℝ) : famIn (c • A) B = c * famIn A B := by
  unfold famIn
  rw [Finset.mul_sum]
  exact Finset.sum_congr rfl fun t _ => by rw [Pi.smul_apply, frobInner_smul_left]

theorem famIn_smul_right (c : ℝ) (A B : J → Matrix n n ℝ) : famIn A (c • B) = c * famIn A B := by
  rw [famIn_comm, famIn_smul_left, famIn_comm]

theorem famIn_self (A : J → Matrix n n ℝ) : famIn A A = famSq A :=
  Finset.sum_congr rfl fun _ _ => frobInner_self _

theorem famSq_nonneg (A : J → Matrix n n ℝ) : 0 ≤ famSq A := Finset.sum_nonneg fun _ _ => frobSq_nonneg _

theorem famSq_entry (A : J → Matrix n n ℝ) (t : J) (i j : n) : A t i j ^ 2 ≤ famSq A := by
  unfold famSq
  refine le_trans ?_ (Finset.single_le_sum (f := fun t => frobSq (A t)) (fun t _ => frobSq_nonneg _)
    (Finset.mem_univ t))
  unfold frobSq
  refine le_trans ?_ (Finset.single_le_sum (f := fun i => ∑ j, A t i j ^ 2)
    (fun i _ => Finset.sum_nonneg fun j _ => sq_nonneg _) (Finset.mem_univ i))
  exact Finset.single_le_sum (f := fun j => A t i j ^ 2) (fun j _ => sq_nonneg _) (Finset.mem_univ j)

theorem continuous_famIn : Continuous fun q : (J → Matrix n n ℝ) × (J → Matrix n n ℝ) => famIn q.1 q.2 := by
  unfold famIn frobInner
  have h1 : ∀ (t : J) (i j : n), Continuous fun q : (J → Matrix n n ℝ) × (J → Matrix n n ℝ) => q.1 t i j :=
    fun t i j => ((continuous_apply t).comp continuous_fst).matrix_elem i j
  have h2 : ∀ (t : J) (i j : n), Continuous fun q : (J → Matrix n n ℝ) × (J → Matrix n n ℝ) => q.2 t i j :=
    fun t i j => ((continuous_apply t).comp continuous_snd).matrix_elem i j
  exact continuous_finsetSum _ fun t _ => continuous_finsetSum _ fun i _ => continuous_finsetSum _ fun j _ =>
    (h1 t i j).mul (h2 t i j)

theorem tendsto_famIn {f g : ℕ → J → Matrix n n ℝ} {A B : J → Matrix n n ℝ} (hf : Tendsto f atTop (𝓝 A))
    (hg : Tendsto g atTop (𝓝 B)) : Tendsto (fun j => famIn (f j) (g j)) atTop (𝓝 (famIn A B)) := by
  unfold famIn frobInner
  refine tendsto_finsetSum _ fun t _ => tendsto_finsetSum _ fun i _ => tendsto_finsetSum _ fun j _ => ?_
  have h1 : Tendsto (fun m => f m t i j) atTop (𝓝 (A t i j)) :=
    tendsto_pi_nhds.mp (tendsto_pi_nhds.mp (tendsto_pi_nhds.mp hf t) i) j
  have h2 : Tendsto (fun m => g m t i j) atTop (𝓝 (B t i j)) :=
    tendsto_pi_nhds.mp (tendsto_pi_nhds.mp (tendsto_pi_nhds.mp hg t) i) j
  exact h1.mul h2

theorem tendsto_famSq {f : ℕ → J → Matrix n n ℝ} {A : J → Matrix n n ℝ} (hf : Tendsto f atTop (𝓝 A)) :
    Tendsto (fun j => famSq (f j)) atTop (𝓝 (famSq A)) := by
  have := tendsto_famIn hf hf
  simpa only [famIn_self] using this

theorem famSq_zero : famSq (0 : J → Matrix n n ℝ) = 0 := by
  unfold famSq frobSq
  simp

theorem tendsto_of_famSq {f : ℕ → J → Matrix n n ℝ} {A : J → Matrix n n ℝ}
    (h : Tendsto (fun j => famSq (f j - A)) atTop (𝓝 0)) : Tendsto f atTop (𝓝 A) := by
  refine tendsto_pi_nhds.mpr fun t => tendsto_pi_nhds.mpr fun i => tendsto_pi_nhds.mpr fun j => ?_
  have h1 : Tendsto (fun m => (f m t i j - A t i j) ^ 2) atTop (𝓝 0) :=
    squeeze_zero (fun _ => sq_nonneg _) (fun m => famSq_entry (f m - A) t i j) h
  have h2 := h1.sqrt
  simp only [Real.sqrt_sq_eq_abs, Real.sqrt_zero] at h2
  have h3 := (tendsto_zero_iff_abs_tendsto_zero _).mpr h2
  have h4 := h3.add_const (A t i j)
  simp only [sub_add_cancel, zero_add] at h4
  exact h4

theorem isCompact_famBall (C : J → Matrix n n ℝ) (B : ℝ) : IsCompact {A : J → Matrix n n ℝ | famSq (A - C) ≤ B} := by
  have hc : Continuous fun A : J → Matrix n n ℝ => famSq (A - C) := by
    have h := continuous_famIn.comp (((continuous_id (X := J → Matrix n n ℝ)).sub (continuous_const (y := C))).prodMk
      ((continuous_id (X := J → Matrix n n ℝ)).sub (continuous_const (y := C))))
    refine h.congr fun A => ?_
    exact famIn_self _
  have hbox : IsCompact (Set.pi Set.univ fun t => Set.pi Set.univ fun i => Set.pi Set.univ fun j =>
      Set.Icc (C t i j - Real.sqrt B) (C t i j + Real.sqrt B) : Set (J → n → n → ℝ)) :=
    isCompact_univ_pi fun _ => isCompact_univ_pi fun _ => isCompact_univ_pi fun _ => isCompact_Icc
  refine hbox.of_isClosed_subset (isClosed_le hc continuous_const) fun (A : J → Matrix n n ℝ) hA => ?_
  refine Set.mem_univ_pi.mpr fun t => Set.mem_univ_pi.mpr fun i => Set.mem_univ_pi.mpr fun j => ?_
  have h1 : (A t i j - C t i j) ^ 2 ≤ B := (famSq_entry (A - C) t i j).trans hA
  have h2 := Real.abs_le_sqrt h1
  rw [abs_le] at h2
  exact ⟨by linarith [h2.1], by linarith [h2.2]⟩

/-- The copies of a family. -/
def pull (ep : I → J) (A : J → Matrix n n ℝ) : I → Matrix n n ℝ := fun i => A (ep i)

theorem continuous_pull (ep : I → J) : Continuous (pull ep : (J → Matrix n n ℝ) → I → Matrix n n ℝ) :=
  continuous_pi fun i => continuous_apply (ep i)

theorem pull_sub (ep : I → J) (A B : J → Matrix n n ℝ) : pull ep (A - B) = pull ep A - pull ep B := rfl

theorem pull_add (ep : I → J) (A B : J → Matrix n n ℝ) : pull ep (A + B) = pull ep A + pull ep B := rfl

/-! ### Passes -/

/-- The variables of a latent solver (`X`, `XP`, `UP` are the scaled duals). -/
structure LSt (J I n : Type*) where
  R : J → Matrix n n ℝ
  Z : J → Matrix n n ℝ
  W : J → Matrix n n ℝ
  X : J → Matrix n n ℝ
  ZP : I → Matrix n n ℝ
  WP : I → Matrix n n ℝ
  XP : I → Matrix n n ℝ
  UP : I → Matrix n n ℝ

/-- The problem `f(R) + g(Z) + psi(copies of Z) + h(W) + phi(copies of W)`, `W ∈ DW`, with the gradient of `f` given
and tested on `DR`. -/
structure LProb (J I n : Type*) where
  ep : I → J
  DR : Set (J → Matrix n n ℝ)
  grad : (J → Matrix n n ℝ) → J → Matrix n n ℝ
  g : (J → Matrix n n ℝ) → ℝ
  h : (J → Matrix n n ℝ) → ℝ
  DW : Set (J → Matrix n n ℝ)
  psi : (I → Matrix n n ℝ) → ℝ
  phi : (I → Matrix n n ℝ) → ℝ

/-- One pass from `s` to `s'`: the optimality conditions of the five updates and the dual updates. -/
structure LPass (p : LProb J I n) (rho : ℝ) (s s' : LSt J I n) : Prop where
  memR : s'.R ∈ p.DR
  r : ∀ Y ∈ p.DR, famIn (p.grad s'.R + rho • (s'.X + (s'.Z - s.Z) - (s'.W - s.W))) (Y - s'.R) = 0
  z : ∀ Y, p.g s'.Z + rho * (famIn (s'.X - (s'.W - s.W)) (Y - s'.Z)
    - famIn (s'.XP + (s'.ZP - s.ZP)) (pull p.ep (Y - s'.Z))) ≤ p.g Y
  zp : ∀ Y, p.psi s'.ZP + rho * famIn s'.XP (Y - s'.ZP) ≤ p.psi Y
  memW : s'.W ∈ p.DW
  w : ∀ Y ∈ p.DW, p.h s'.W - rho * (famIn s'.X (Y - s'.W)
    + famIn (s'.UP + (s'.WP - s.WP)) (pull p.ep (Y - s'.W))) ≤ p.h Y
  wp : ∀ Y, p.phi s'.WP + rho * famIn s'.UP (Y - s'.WP) ≤ p.phi Y
  x : s'.X = s.X + (s'.R - s'.Z + s'.W)
  xp : s'.XP = s.XP + (pull p.ep s'.Z - s'.ZP)
  up : s'.UP = s.UP + (pull p.ep s'.W - s'.WP)

/-- The energy of two consecutive states relative to a saddle state. -/
def lEnergy (st s0 s1 : LSt J I n) : ℝ :=
  famSq (s1.X - st.X) + famSq (s1.XP - st.XP) + famSq (s1.UP - st.UP)
    + famSq ((s1.Z - st.Z) - (s1.W - st.W)) + famSq (s1.W - st.W) + famSq (s1.ZP - st.ZP) + famSq (s1.WP - st.WP)
    + famSq (s1.W - s0.W) + 2 * famSq (s1.UP - s0.UP) + 2 * famSq (s1.WP - s0.WP)
    + famSq (s1.XP - s0.XP) + famSq (s1.ZP - s0.ZP)

/-- The terms of the decrease that are squares. -/
def lDrop (s0 s1 s2 : LSt J I n) : ℝ :=
  famSq (s2.X - s1.X) + famSq (s2.XP - s1.XP) + famSq (s2.UP - s1.UP) + famSq (s2.ZP - s1.ZP)
    + famSq (s2.WP - s1.WP)
    + famSq ((s2.Z - s1.Z) - (s2.W - s1.W) + ((s2.W - s1.W) - (s1.W - s0.W)))

/-- The algebra of one step. `ev, dv, r0, eW, dW, dWm, X` are families over time, the others over copies. -/
theorem latent_algebra {rho mu : ℝ} (hr : 0 < rho) (ev dv r0 eW dW dWm X : J → Matrix n n ℝ)
    (eZP dZP dZPm rp rpm XP eWP dWP dWPm sp spm UP : I → Matrix n n ℝ)
    (h1 : mu * famSq (ev + dv + r0) + rho * famIn (X + r0 + dv) (ev + dv + r0) ≤ 0)
    (h2 : 0 ≤ famIn (X + r0 - dW) (ev + dv + eW + dW) - famIn (XP + rp + dZP) (eZP + dZP + rp))
    (h3 : 0 ≤ famIn (XP + rp) (eZP + dZP))
    (h4 : 0 ≤ -(famIn (X + r0) (eW + dW)) - famIn (UP + sp + dWP) (eWP + dWP + sp))
    (h5 : 0 ≤ famIn (UP + sp) (eWP + dWP))
    (h6 : 0 ≤ famIn (r0 - (dW - dWm)) (dv + dW) - famIn (rp + dZP - dZPm) (dZP + rp - rpm))
    (h7 : 0 ≤ famIn rp dZP)
    (h8 : 0 ≤ -(famIn r0 dW) - famIn (sp + dWP - dWPm) (dWP + sp - spm))
    (h9 : 0 ≤ famIn sp dWP) :
    (famSq (X + r0) + famSq (XP + rp) + famSq (UP + sp) + famSq (ev + dv) + famSq (eW + dW) + famSq (eZP + dZP)
      + famSq (eWP + dWP) + famSq dW + 2 * famSq sp + 2 * famSq dWP + famSq rp + famSq dZP)
      + (2 * mu / rho * famSq (ev + dv + r0) + famSq dW + 2 * famIn dW (ev + dv + r0))
      + (famSq r0 + famSq rp + famSq sp + famSq dZP + famSq dWP + famSq (dv + (dW - dWm))) ≤
    famSq X + famSq XP + famSq UP + famSq ev + famSq eW + famSq eZP + famSq eWP + famSq dWm + 2 * famSq spm
      + 2 * famSq dWPm + famSq rpm + famSq dZPm := by
  have h1' : 2 * mu / rho * famSq (ev + dv + r0) + 2 * famIn (X + r0 + dv) (ev + dv + r0) ≤ 0 := by
    have h := mul_le_mul_of_nonneg_left h1 (show 0 ≤ 2 / rho by positivity)
    have e : 2 / rho * (mu * famSq (ev + dv + r0) + rho * famIn (X + r0 + dv) (ev + dv + r0)) =
        2 * mu / rho * famSq (ev + dv + r0) + 2 * famIn (X + r0 + dv) (ev + dv + r0) := by
      field_simp
    rw [e, mul_zero] at h
    exact h
  have q1 := famSq_nonneg (rp - rpm + (dZP - dZPm))
  have q2 := famSq_nonneg (sp - spm + (dWP - dWPm))
  generalize hm : 2 * mu / rho * famSq (ev + dv + r0) = m at h1' ⊢
  simp only [← famIn_self] at q1 q2 ⊢
  simp only [famIn_add_left, famIn_add_right, famIn_sub_left, famIn_sub_right] at h1' h2 h3 h4 h5 h6 h7 h8 h9 q1 q2 ⊢
  have c1 := famIn_comm ev dv
  have c2 := famIn_comm ev r0
  have c3 := famIn_comm ev eW
  have c4 := famIn_comm ev dW
  have c5 := famIn_comm ev X
  have c6 := famIn_comm dv r0
  have c7 := famIn_comm dv eW
  have c8 := famIn_comm dv dW
  have c9 := famIn_comm dv dWm
  have c10 := famIn_comm dv X
  have c11 := famIn_comm r0 eW
  have c12 := famIn_comm r0 dW
  have c13 := famIn_comm r0 X
  have c14 := famIn_comm eW dW
  have c15 := famIn_comm eW X
  have c16 := famIn_comm dW dWm
  have c17 := famIn_comm dW X
  have d1 := famIn_comm eZP dZP
  have d2 := famIn_comm eZP rp
  have d3 := famIn_comm eZP XP
  have d4 := famIn_comm dZP dZPm
  have d5 := famIn_comm dZP rp
  have d6 := famIn_comm dZP rpm
  have d7 := famIn_comm dZP XP
  have d8 := famIn_comm dZPm rp
  have d9 := famIn_comm dZPm rpm
  have d10 := famIn_comm rp rpm
  have d11 := famIn_comm rp XP
  have f1 := famIn_comm eWP dWP
  have f2 := famIn_comm eWP sp
  have f3 := famIn_comm eWP UP
  have f4 := famIn_comm dWP dWPm
  have f5 := famIn_comm dWP sp
  have f6 := famIn_comm dWP spm
  have f7 := famIn_comm dWP UP
  have f8 := famIn_comm dWPm sp
  have f9 := famIn_comm dWPm spm
  have f10 := famIn_comm sp spm
  have f11 := famIn_comm sp UP
  linarith

/-- Monotonicity of the `R`-condition between a pass and a saddle state. -/
theorem LPass.mono_r {p : LProb J I n} {rho : ℝ} {s s' st : LSt J I n} (h : LPass p rho s s')
    (hs : LPass p rho st st) :
    famIn (p.grad s'.R - p.grad st.R) (s'.R - st.R)
      + rho * famIn (s'.X - st.X + ((s'.Z - s.Z) - (s'.W - s.W))) (s'.R - st.R) = 0 := by
  have a1 := h.r st.R hs.memR
  have a2 := hs.r s'.R h.memR
  simp only [sub_self] at a2
  simp only [famIn_add_left, famIn_sub_left, famIn_smul_left, famIn_sub_right] at a1 a2 ⊢
  have e0 : ∀ A : J → Matrix n n ℝ, famIn (0 : J → Matrix n n ℝ) A = 0 := fun A => by
    have := famIn_smul_left 0 A A
    rwa [zero_smul, zero_mul] at this
  simp only [e0] at a2
  linarith

/-- The decrease of the energy over two consecutive passes. -/
theorem LPass.decrease {p : LProb J I n} {rho mu : ℝ} (hr : 0 < rho) {s0 s1 s2 st : LSt J I n}
    (h1 : LPass p rho s0 s1) (h2 : LPass p rho s1 s2) (hs : LPass p rho st st)
    (hmu : mu * famSq (s2.R - st.R) ≤ famIn (p.grad s2.R - p.grad st.R) (s2.R - st.R)) :
    lEnergy st s1 s2 + (2 * mu / rho * famSq (s2.R - st.R) + famSq (s2.W - s1.W)
      + 2 * famIn (s2.W - s1.W) (s2.R - st.R)) + lDrop s0 s1 s2 ≤ lEnergy st s0 s1 := by
  have hst1 : st.R = st.Z - st.W := by
    have := hs.x
    rw [left_eq_add] at this
    rw [← sub_eq_zero, ← this]; abel
  have hst2 : pull p.ep st.Z = st.ZP := by
    have := hs.xp
    rw [left_eq_add] at this
    exact sub_eq_zero.mp this
  have hst3 : pull p.ep st.W = st.WP := by
    have := hs.up
    rw [left_eq_add] at this
    exact sub_eq_zero.mp this
  have hpz1 : pull p.ep s1.Z = s1.ZP + (s1.XP - s0.XP) := by rw [h1.xp]; abel
  have hpz2 : pull p.ep s2.Z = s2.ZP + (s2.XP - s1.XP) := by rw [h2.xp]; abel
  have hpw1 : pull p.ep s1.W = s1.WP + (s1.UP - s0.UP) := by rw [h1.up]; abel
  have hpw2 : pull p.ep s2.W = s2.WP + (s2.UP - s1.UP) := by rw [h2.up]; abel
  have hR2 : s2.R = s2.Z - s2.W + (s2.X - s1.X) := by rw [h2.x]; abel
  have m1 := h2.mono_r hs
  have eR : s2.R - st.R = ((s1.Z - st.Z) - (s1.W - st.W)) + ((s2.Z - s1.Z) - (s2.W - s1.W)) + (s2.X - s1.X) := by
    rw [hR2, hst1]; abel
  have mz := add_le_add (h2.z st.Z) (hs.z s2.Z)
  have mzp := add_le_add (h2.zp st.ZP) (hs.zp s2.ZP)
  have mw := add_le_add (h2.w st.W hs.memW) (hs.w s2.W h2.memW)
  have mwp := add_le_add (h2.wp st.WP) (hs.wp s2.WP)
  have cz := add_le_add (h2.z s1.Z) (h1.z s2.Z)
  have czp := add_le_add (h2.zp s1.ZP) (h1.zp s2.ZP)
  have cw := add_le_add (h2.w s1.W h1.memW) (h1.w s2.W h2.memW)
  have cwp := add_le_add (h2.wp s1.WP) (h1.wp s2.WP)
  simp only [pull_sub, hst2, hst3, hpz1, hpz2, hpw1, hpw2, sub_self, add_zero, sub_zero] at mz mzp mw mwp cz czp cw cwp
  have key := latent_algebra (mu := mu) hr ((s1.Z - st.Z) - (s1.W - st.W)) ((s2.Z - s1.Z) - (s2.W - s1.W))
    (s2.X - s1.X) (s1.W - st.W) (s2.W - s1.W) (s1.W - s0.W) (s1.X - st.X)
    (s1.ZP - st.ZP) (s2.ZP - s1.ZP) (s1.ZP - s0.ZP) (s2.XP - s1.XP) (s1.XP - s0.XP) (s1.XP - st.XP)
    (s1.WP - st.WP) (s2.WP - s1.WP) (s1.WP - s0.WP) (s2.UP - s1.UP) (s1.UP - s0.UP) (s1.UP - st.UP)
    ?_ ?_ ?_ ?_ ?_ ?_ ?_ ?_ ?_
  · rw [← eR] at key
    unfold lEnergy lDrop
    have t1 : s1.X - st.X + (s2.X - s1.X) = s2.X - st.X := by abel
    have t2 : s1.XP - st.XP + (s2.XP - s1.XP) = s2.XP - st.XP := by abel
    have t3 : s1.UP - st.UP + (s2.UP - s1.UP) = s2.UP - st.UP := by abel
    have t4 : s1.Z - st.Z - (s1.W - st.W) + (s2.Z - s1.Z - (s2.W - s1.W)) = s2.Z - st.Z - (s2.W - st.W) := by abel
    have t5 : s1.W - st.W + (s2.W - s1.W) = s2.W - st.W := by abel
    have t6 : s1.ZP - st.ZP + (s2.ZP - s1.ZP) = s2.ZP - st.ZP := by abel
    have t7 : s1.WP - st.WP + (s2.WP - s1.WP) = s2.WP - st.WP := by abel
    rw [t1, t2, t3, t4, t5, t6, t7] at key
    linarith
  · rw [← eR]
    have t : s1.X - st.X + (s2.X - s1.X) + (s2.Z - s1.Z - (s2.W - s1.W)) =
      s2.X - st.X + (s2.Z - s1.Z - (s2.W - s1.W)) := by abel
    rw [t]
    linarith
  all_goals
    refine le_of_mul_le_mul_left ?_ hr
    rw [mul_zero]
    simp only [famIn_add_left, famIn_sub_left, famIn_add_right, famIn_sub_right] at mz mzp mw mwp cz czp cw cwp ⊢
    linarith

/-- The first block after a pass is controlled by the energy before it. -/
theorem LPass.bound_r {p : LProb J I n} {rho : ℝ} (hr : 0 < rho) {s0 s1 s2 st : LSt J I n}
    (h2 : LPass p rho s1 s2) (hs : LPass p rho st st)
    (hmono : 0 ≤ famIn (p.grad s2.R - p.grad st.R) (s2.R - st.R)) :
    famSq (s2.R - st.R) ≤ 2 * lEnergy st s0 s1 := by
  have hst1 : st.R = st.Z - st.W := by
    have := hs.x
    rw [left_eq_add] at this
    rw [← sub_eq_zero, ← this]; abel
  have hR2 : s2.X = s1.X + (s2.R - s2.Z + s2.W) := h2.x
  have m1 := h2.mono_r hs
  have m2 : famIn (s2.X - st.X + ((s2.Z - s1.Z) - (s2.W - s1.W))) (s2.R - st.R) ≤ 0 := by
    refine le_of_mul_le_mul_left ?_ hr
    linarith
  have e : s2.X - st.X + ((s2.Z - s1.Z) - (s2.W - s1.W)) =
      (s2.R - st.R) + ((s1.X - st.X) - ((s1.Z - st.Z) - (s1.W - st.W))) := by
    rw [hR2, hst1]; abel
  rw [e] at m2
  generalize s2.R - st.R = A at *
  have hX := famSq_nonneg (s1.X - st.X + ((s1.Z - st.Z) - (s1.W - st.W)))
  have hA := famSq_nonneg (A + ((s1.X - st.X) - ((s1.Z - st.Z) - (s1.W - st.W))))
  have hE : famSq (s1.X - st.X) + famSq ((s1.Z - st.Z) - (s1.W - st.W)) ≤ lEnergy st s0 s1 := by
    unfold lEnergy
    have a1 := famSq_nonneg (s1.XP - st.XP)
    have a2 := famSq_nonneg (s1.UP - st.UP)
    have a3 := famSq_nonneg (s1.W - st.W)
    have a4 := famSq_nonneg (s1.ZP - st.ZP)
    have a5 := famSq_nonneg (s1.WP - st.WP)
    have a6 := famSq_nonneg (s1.W - s0.W)
    have a7 := famSq_nonneg (s1.UP - s0.UP)
    have a8 := famSq_nonneg (s1.WP - s0.WP)
    have a9 := famSq_nonneg (s1.XP - s0.XP)
    have a10 := famSq_nonneg (s1.ZP - s0.ZP)
    linarith
  generalize s1.X - st.X = B at *
  generalize (s1.Z - st.Z) - (s1.W - st.W) = C at *
  simp only [← famIn_self] at hX hA hE ⊢
  simp only [famIn_add_left, famIn_add_right, famIn_sub_left, famIn_sub_right] at m2 hX hA hE ⊢
  have c1 := famIn_comm A B
  have c2 := famIn_comm A C
  have c3 := famIn_comm B C
  linarith

theorem lEnergy_nonneg (st s0 s1 : LSt J I n) : 0 ≤ lEnergy st s0 s1 := by
  unfold lEnergy
  have a1 := famSq_nonneg (s1.XP - st.XP)
  have a2 := famSq_nonneg (s1.UP - st.UP)
  have a3 := famSq_nonneg (s1.W - st.W)
  have a4 := famSq_nonneg (s1.ZP - st.ZP)
  have a5 := famSq_nonneg (s1.WP - st.WP)
  have a6 := famSq_nonneg (s1.W - s0.W)
  have a7 := famSq_nonneg (s1.UP - s0.UP)
  have a8 := famSq_nonneg (s1.WP - s0.WP)
  have a9 := famSq_nonneg (s1.XP - s0.XP)
  have a10 := famSq_nonneg (s1.ZP - s0.ZP)
  have a11 := famSq_nonneg (s1.X - st.X)
  have a12 := famSq_nonneg ((s1.Z - st.Z) - (s1.W - st.W))
  linarith

/-- The mixed terms of the decrease are a positive definite form when `kappa > 1`. -/
theorem mixed_bound {kappa : ℝ} (hk : 1 < kappa) (A B : J → Matrix n n ℝ) :
    (kappa - 1) / (kappa + 1) * (famSq A + famSq B) ≤ kappa * famSq A + famSq B + 2 * famIn B A := by
  have hk1 : 0 < kappa + 1 := by linarith
  have h := famSq_nonneg (((kappa + 1) / 2) • A + B)
  have hA := famSq_nonneg A
  simp only [← famIn_self] at h hA ⊢
  simp only [famIn_add_left, famIn_add_right, famIn_smul_left, famIn_smul_right] at h
  rw [famIn_comm A B] at h
  rw [div_mul_eq_mul_div, div_le_iff₀ hk1]
  nlinarith [mul_nonneg (sq_nonneg (kappa - 1)) hA]

theorem tendsto_shift {u : ℕ → J → Matrix n n ℝ} {A : J → Matrix n n ℝ}
    (h : Tendsto (fun j => famSq (u (j + 1) - u j)) atTop (𝓝 0)) {φ : ℕ → ℕ} (hφ : StrictMono φ)
    (hA : Tendsto (fun j => u (φ j)) atTop (𝓝 A)) : Tendsto (fun j => u (φ j + 1)) atTop (𝓝 A) := by
  have h1 : Tendsto (fun j => u (j + 1) - u j) atTop (𝓝 0) := tendsto_of_famSq (by simpa only [sub_zero] using h)
  have h2 := (h1.comp hφ.tendsto_atTop).add hA
  rw [zero_add] at h2
  refine h2.congr fun j => ?_
  simp only [Function.comp, sub_add_cancel]

/-- What is known along a run: the energy decreases and the steps vanish. -/
theorem latent_budget {p : LProb J I n} {rho mu : ℝ} (hr : 0 < rho) (hmu : rho < 2 * mu) {s : ℕ → LSt J I n}
    (hs : ∀ j, LPass p rho (s j) (s (j + 1))) {st : LSt J I n} (hst : LPass p rho st st)
    (hstrong : ∀ j, mu * famSq ((s (j + 1)).R - st.R) ≤
      famIn (p.grad (s (j + 1)).R - p.grad st.R) ((s (j + 1)).R - st.R)) :
    (Antitone fun j => lEnergy st (s j) (s (j + 1))) ∧
    Tendsto (fun j => famSq ((s (j + 2)).R - st.R)) atTop (𝓝 0) ∧
    Tendsto (fun j => famSq ((s (j + 2)).W - (s (j + 1)).W)) atTop (𝓝 0) ∧
    Tendsto (fun j => lDrop (s j) (s (j + 1)) (s (j + 2))) atTop (𝓝 0) := by
  set V : ℕ → ℝ := fun j => lEnergy st (s j) (s (j + 1)) with hV
  set kappa : ℝ := 2 * mu / rho with hkap
  have hk : 1 < kappa := by rw [hkap, lt_div_iff₀ hr]; linarith
  set c : ℝ := (kappa - 1) / (kappa + 1) with hc
  have hc0 : 0 < c := div_pos (by linarith) (by linarith)
  have drop0 : ∀ j, 0 ≤ lDrop (s j) (s (j + 1)) (s (j + 2)) := by
    intro j
    unfold lDrop
    have := famSq_nonneg ((s (j + 2)).X - (s (j + 1)).X)
    have := famSq_nonneg ((s (j + 2)).XP - (s (j + 1)).XP)
    have := famSq_nonneg ((s (j + 2)).UP - (s (j + 1)).UP)
    have := famSq_nonneg ((s (j + 2)).ZP - (s (j + 1)).ZP)
    have := famSq_nonneg ((s (j + 2)).WP - (s (j + 1)).WP)
    have := famSq_nonneg ((s (j + 2)).Z - (s (j + 1)).Z - ((s (j + 2)).W - (s (j + 1)).W)
      + (((s (j + 2)).W - (s (j + 1)).W) - ((s (j + 1)).W - (s j).W)))
    linarith
  have step : ∀ j, V (j + 1) + c * (famSq ((s (j + 2)).R - st.R) + famSq ((s (j + 2)).W - (s (j + 1)).W))
      + lDrop (s j) (s (j + 1)) (s (j + 2)) ≤ V j := by
    intro j
    have h1 := (hs j).decrease hr (hs (j + 1)) hst (hstrong (j + 1))
    have h2 := mixed_bound hk ((s (j + 2)).R - st.R) ((s (j + 2)).W - (s (j + 1)).W)
    simp only [hV]
    rw [← hkap] at h1
    rw [← hc] at h2
    linarith
  have pos : ∀ j, 0 ≤ c * (famSq ((s (j + 2)).R - st.R) + famSq ((s (j + 2)).W - (s (j + 1)).W)) := fun j =>
    mul_nonneg hc0.le (add_nonneg (famSq_nonneg _) (famSq_nonneg _))
  have anti : Antitone V := antitone_nat_of_succ_le fun j => by
    have := step j
    have := pos j
    have := drop0 j
    linarith
  have hlim := tendsto_atTop_ciInf anti ⟨0, by rintro _ ⟨k, rfl⟩; exact lEnergy_nonneg _ _ _⟩
  have hdiff := hlim.sub (hlim.comp (tendsto_add_atTop_nat 1))
  rw [sub_self] at hdiff
  simp only [Function.comp] at hdiff
  have hdiv : Tendsto (fun j => (V j - V (j + 1)) / c) atTop (𝓝 0) := by
    have := hdiff.div_const c
    rwa [zero_div] at this
  refine ⟨anti, squeeze_zero (fun _ => famSq_nonneg _) (fun j => ?_) hdiv,
    squeeze_zero (fun _ => famSq_nonneg _) (fun j => ?_) hdiv, squeeze_zero drop0 (fun j => ?_) hdiff⟩
  · rw [le_div_iff₀ hc0]
    have h1 := step j
    have h2 := drop0 j
    have h3 := mul_nonneg hc0.le (famSq_nonneg ((s (j + 2)).W - (s (j + 1)).W))
    rw [mul_add] at h1
    linarith
  · rw [le_div_iff₀ hc0]
    have h1 := step j
    have h2 := drop0 j
    have h3 := mul_nonneg hc0.le (famSq_nonneg ((s (j + 2)).R - st.R))
    rw [mul_add] at h1
    linarith
  · have h1 := step j
    have h2 := pos j
    linarith

/-- A pass that changes nothing in the limit. -/
theorem latent_limit {p : LProb J I n} {rho : ℝ} (hg : Continuous p.g) (hh : Continuous p.h) (hpsi : Continuous p.psi)
    (hphi : Continuous p.phi) (hDW : IsClosed p.DW) {s s' : ℕ → LSt J I n} (hs : ∀ j, LPass p rho (s j) (s' j))
    {a : LSt J I n} (hmem : a.R ∈ p.DR) (hgrad : Tendsto (fun j => p.grad (s' j).R) atTop (𝓝 (p.grad a.R)))
    (hR : Tendsto (fun j => (s' j).R) atTop (𝓝 a.R))
    (hZ : Tendsto (fun j => (s j).Z) atTop (𝓝 a.Z)) (hZ' : Tendsto (fun j => (s' j).Z) atTop (𝓝 a.Z))
    (hW : Tendsto (fun j => (s j).W) atTop (𝓝 a.W)) (hW' : Tendsto (fun j => (s' j).W) atTop (𝓝 a.W))
    (hX : Tendsto (fun j => (s j).X) atTop (𝓝 a.X)) (hX' : Tendsto (fun j => (s' j).X) atTop (𝓝 a.X))
    (hZP : Tendsto (fun j => (s j).ZP) atTop (𝓝 a.ZP)) (hZP' : Tendsto (fun j => (s' j).ZP) atTop (𝓝 a.ZP))
    (hWP : Tendsto (fun j => (s j).WP) atTop (𝓝 a.WP)) (hWP' : Tendsto (fun j => (s' j).WP) atTop (𝓝 a.WP))
    (hXP : Tendsto (fun j => (s j).XP) atTop (𝓝 a.XP)) (hXP' : Tendsto (fun j => (s' j).XP) atTop (𝓝 a.XP))
    (hUP : Tendsto (fun j => (s j).UP) atTop (𝓝 a.UP)) (hUP' : Tendsto (fun j => (s' j).UP) atTop (𝓝 a.UP)) :
    LPass p rho a a := by
  have hpull : ∀ {u : ℕ → J → Matrix n n ℝ} {A : J → Matrix n n ℝ}, Tendsto u atTop (𝓝 A) →
      Tendsto (fun j => pull p.ep (u j)) atTop (𝓝 (pull p.ep A)) := fun h =>
    ((continuous_pull p.ep).tendsto _).comp h
  refine ⟨hmem, fun Y hY => ?_, fun Y => ?_, fun Y => ?_, ?_, fun Y hY => ?_, fun Y => ?_, ?_, ?_, ?_⟩
  · have h1 := tendsto_famIn (hgrad.add (((hX'.add (hZ'.sub hZ)).sub (hW'.sub hW)).const_smul rho))
      ((tendsto_const_nhds (x := Y)).sub hR)
    exact tendsto_nhds_unique h1 (tendsto_const_nhds.congr fun j => ((hs j).r Y hY).symm)
  · have h1 := ((hg.tendsto a.Z).comp hZ').add (((tendsto_famIn (hX'.sub (hW'.sub hW))
      ((tendsto_const_nhds (x := Y)).sub hZ')).sub (tendsto_famIn (hXP'.add (hZP'.sub hZP))
      (hpull ((tendsto_const_nhds (x := Y)).sub hZ')))).const_mul rho)
    exact le_of_tendsto h1 (Eventually.of_forall fun j => (hs j).z Y)
  · have h1 := ((hpsi.tendsto a.ZP).comp hZP').add ((tendsto_famIn hXP'
      ((tendsto_const_nhds (x := Y)).sub hZP')).const_mul rho)
    exact le_of_tendsto h1 (Eventually.of_forall fun j => (hs j).zp Y)
  · exact hDW.mem_of_tendsto hW' (Eventually.of_forall fun j => (hs j).memW)
  · have h1 := ((hh.tendsto a.W).comp hW').sub (((tendsto_famIn hX'
      ((tendsto_const_nhds (x := Y)).sub hW')).add (tendsto_famIn (hUP'.add (hWP'.sub hWP))
      (hpull ((tendsto_const_nhds (x := Y)).sub hW')))).const_mul rho)
    exact le_of_tendsto h1 (Eventually.of_forall fun j => (hs j).w Y hY)
  · have h1 := ((hphi.tendsto a.WP).comp hWP').add ((tendsto_famIn hUP'
      ((tendsto_const_nhds (x := Y)).sub hWP')).const_mul rho)
    exact le_of_tendsto h1 (Eventually.of_forall fun j => (hs j).wp Y)
  · exact tendsto_nhds_unique hX' ((hX.add ((hR.sub hZ').add hW')).congr fun j => (hs j).x.symm)
  · exact tendsto_nhds_unique hXP' ((hXP.add ((hpull hZ').sub hZP')).congr fun j => (hs j).xp.symm)
  · exact tendsto_nhds_unique hUP' ((hUP.add ((hpull hW').sub hWP')).congr fun j => (hs j).up.symm)

theorem famSq_le_of_add {A B : J → Matrix n n ℝ} : famSq (A + B) ≤ 2 * famSq A + 2 * famSq B := by
  have h := famSq_nonneg (A - B)
  simp only [← famIn_self] at h ⊢
  simp only [famIn_add_left, famIn_add_right, famIn_sub_left, famIn_sub_right] at h ⊢
  linarith

/-- The steps of a run vanish. -/
structure LSteps (s : ℕ → LSt J I n) : Prop where
  z : Tendsto (fun j => famSq ((s (j + 1)).Z - (s j).Z)) atTop (𝓝 0)
  w : Tendsto (fun j => famSq ((s (j + 1)).W - (s j).W)) atTop (𝓝 0)
  x : Tendsto (fun j => famSq ((s (j + 1)).X - (s j).X)) atTop (𝓝 0)
  zp : Tendsto (fun j => famSq ((s (j + 1)).ZP - (s j).ZP)) atTop (𝓝 0)
  wp : Tendsto (fun j => famSq ((s (j + 1)).WP - (s j).WP)) atTop (𝓝 0)
  xp : Tendsto (fun j => famSq ((s (j + 1)).XP - (s j).XP)) atTop (𝓝 0)
  up : Tendsto (fun j => famSq ((s (j + 1)).UP - (s j).UP)) atTop (𝓝 0)

theorem latent_steps {p : LProb J I n} {rho mu : ℝ} (hr : 0 < rho) (hmu : rho < 2 * mu)
    {s : ℕ → LSt J I n} (hs : ∀ j, LPass p rho (s j) (s (j + 1))) {st : LSt J I n} (hst : LPass p rho st st)
    (hstrong : ∀ j, mu * famSq ((s (j + 1)).R - st.R) ≤
      famIn (p.grad (s (j + 1)).R - p.grad st.R) ((s (j + 1)).R - st.R)) : LSteps s := by
  obtain ⟨anti, bR, bW, bD⟩ := latent_budget hr hmu hs hst hstrong
  -- the steps vanish
  have part : ∀ {f : ℕ → ℝ}, (∀ j, 0 ≤ f j) → (∀ j, f (j + 1) ≤ lDrop (s j) (s (j + 1)) (s (j + 2))) →
      Tendsto f atTop (𝓝 0) := fun h0 h1 => (tendsto_add_atTop_iff_nat 1).mp (squeeze_zero (fun j => h0 _) h1 bD)
  have nn : ∀ j, 0 ≤ famSq ((s (j + 2)).X - (s (j + 1)).X) ∧ 0 ≤ famSq ((s (j + 2)).XP - (s (j + 1)).XP) ∧
      0 ≤ famSq ((s (j + 2)).UP - (s (j + 1)).UP) ∧ 0 ≤ famSq ((s (j + 2)).ZP - (s (j + 1)).ZP) ∧
      0 ≤ famSq ((s (j + 2)).WP - (s (j + 1)).WP) ∧
      0 ≤ famSq ((s (j + 2)).Z - (s (j + 1)).Z - ((s (j + 2)).W - (s (j + 1)).W)
      + (((s (j + 2)).W - (s (j + 1)).W) - ((s (j + 1)).W - (s j).W))) := fun j =>
    ⟨famSq_nonneg _, famSq_nonneg _, famSq_nonneg _, famSq_nonneg _, famSq_nonneg _, famSq_nonneg _⟩
  have dX : Tendsto (fun j => famSq ((s (j + 1)).X - (s j).X)) atTop (𝓝 0) :=
    part (fun j => famSq_nonneg _) fun j => by
      obtain ⟨h1, h2, h3, h4, h5, h6⟩ := nn j
      unfold lDrop; linarith
  have dXP : Tendsto (fun j => famSq ((s (j + 1)).XP - (s j).XP)) atTop (𝓝 0) :=
    part (fun j => famSq_nonneg _) fun j => by
      obtain ⟨h1, h2, h3, h4, h5, h6⟩ := nn j
      unfold lDrop; linarith
  have dUP : Tendsto (fun j => famSq ((s (j + 1)).UP - (s j).UP)) atTop (𝓝 0) :=
    part (fun j => famSq_nonneg _) fun j => by
      obtain ⟨h1, h2, h3, h4, h5, h6⟩ := nn j
      unfold lDrop; linarith
  have dZP : Tendsto (fun j => famSq ((s (j + 1)).ZP - (s j).ZP)) atTop (𝓝 0) :=
    part (fun j => famSq_nonneg _) fun j => by
      obtain ⟨h1, h2, h3, h4, h5, h6⟩ := nn j
      unfold lDrop; linarith
  have dWP : Tendsto (fun j => famSq ((s (j + 1)).WP - (s j).WP)) atTop (𝓝 0) :=
    part (fun j => famSq_nonneg _) fun j => by
      obtain ⟨h1, h2, h3, h4, h5, h6⟩ := nn j
      unfold lDrop; linarith
  have dW : Tendsto (fun j => famSq ((s (j + 1)).W - (s j).W)) atTop (𝓝 0) := (tendsto_add_atTop_iff_nat 1).mp bW
  have dZ : Tendsto (fun j => famSq ((s (j + 1)).Z - (s j).Z)) atTop (𝓝 0) := by
    refine (tendsto_add_atTop_iff_nat 1).mp ?_
    have h := (bD.const_mul 2).add (dW.const_mul 2)
    simp only [mul_zero, add_zero] at h
    refine squeeze_zero (fun _ => famSq_nonneg _) (fun j => ?_) h
    obtain ⟨h1, h2, h3, h4, h5, h6⟩ := nn j
    have e : (s (j + 1 + 1)).Z - (s (j + 1)).Z = ((s (j + 2)).Z - (s (j + 1)).Z - ((s (j + 2)).W - (s (j + 1)).W)
      + (((s (j + 2)).W - (s (j + 1)).W) - ((s (j + 1)).W - (s j).W))) + ((s (j + 1)).W - (s j).W) := by abel
    rw [e]
    refine famSq_le_of_add.trans ?_
    unfold lDrop
    linarith
  exact ⟨dZ, dW, dX, dZP, dWP, dXP, dUP⟩

/-- The components along a subsequence. -/
structure LTends (s : ℕ → LSt J I n) (φ : ℕ → ℕ) (a : LSt J I n) : Prop where
  z : Tendsto (fun j => (s (φ j)).Z) atTop (𝓝 a.Z)
  w : Tendsto (fun j => (s (φ j)).W) atTop (𝓝 a.W)
  x : Tendsto (fun j => (s (φ j)).X) atTop (𝓝 a.X)
  zp : Tendsto (fun j => (s (φ j)).ZP) atTop (𝓝 a.ZP)
  wp : Tendsto (fun j => (s (φ j)).WP) atTop (𝓝 a.WP)
  xp : Tendsto (fun j => (s (φ j)).XP) atTop (𝓝 a.XP)
  up : Tendsto (fun j => (s (φ j)).UP) atTop (𝓝 a.UP)

theorem latent_bounded {p : LProb J I n} {rho mu : ℝ} (hr : 0 < rho) (hmu : rho < 2 * mu)
    {s : ℕ → LSt J I n} (hs : ∀ j, LPass p rho (s j) (s (j + 1))) {st : LSt J I n} (hst : LPass p rho st st)
    (hstrong : ∀ j, mu * famSq ((s (j + 1)).R - st.R) ≤
      famIn (p.grad (s (j + 1)).R - p.grad st.R) ((s (j + 1)).R - st.R)) (j : ℕ) :
    famSq ((s (j + 1)).Z - st.Z) ≤ 4 * lEnergy st (s 0) (s 1) ∧ famSq ((s (j + 1)).W - st.W) ≤ 4 * lEnergy st (s 0) (s 1) ∧
      famSq ((s (j + 1)).X - st.X) ≤ 4 * lEnergy st (s 0) (s 1) ∧
      famSq ((s (j + 1)).ZP - st.ZP) ≤ 4 * lEnergy st (s 0) (s 1) ∧
      famSq ((s (j + 1)).WP - st.WP) ≤ 4 * lEnergy st (s 0) (s 1) ∧
      famSq ((s (j + 1)).XP - st.XP) ≤ 4 * lEnergy st (s 0) (s 1) ∧
      famSq ((s (j + 1)).UP - st.UP) ≤ 4 * lEnergy st (s 0) (s 1) := by
  obtain ⟨anti, -, -, -⟩ := latent_budget hr hmu hs hst hstrong
  have h0 : lEnergy st (s j) (s (j + 1)) ≤ lEnergy st (s 0) (s 1) := anti (Nat.zero_le j)
  have a1 := famSq_nonneg ((s (j + 1)).XP - st.XP)
  have a2 := famSq_nonneg ((s (j + 1)).UP - st.UP)
  have a3 := famSq_nonneg ((s (j + 1)).W - st.W)
  have a4 := famSq_nonneg ((s (j + 1)).ZP - st.ZP)
  have a5 := famSq_nonneg ((s (j + 1)).WP - st.WP)
  have a6 := famSq_nonneg ((s (j + 1)).W - (s j).W)
  have a7 := famSq_nonneg ((s (j + 1)).UP - (s j).UP)
  have a8 := famSq_nonneg ((s (j + 1)).WP - (s j).WP)
  have a9 := famSq_nonneg ((s (j + 1)).XP - (s j).XP)
  have a10 := famSq_nonneg ((s (j + 1)).ZP - (s j).ZP)
  have a11 := famSq_nonneg ((s (j + 1)).X - st.X)
  have a12 := famSq_nonneg (((s (j + 1)).Z - st.Z) - ((s (j + 1)).W - st.W))
  have a13 : famSq ((s (j + 1)).Z - st.Z) ≤ 2 * famSq (((s (j + 1)).Z - st.Z) - ((s (j + 1)).W - st.W))
      + 2 * famSq ((s (j + 1)).W - st.W) := by
    have := famSq_le_of_add (A := ((s (j + 1)).Z - st.Z) - ((s (j + 1)).W - st.W)) (B := (s (j + 1)).W - st.W)
    rwa [sub_add_cancel] at this
  have h1 := h0
  unfold lEnergy at h1
  have h2 := lEnergy_nonneg st (s 0) (s 1)
  unfold lEnergy at h2
  unfold lEnergy
  refine ⟨?_, ?_, ?_, ?_, ?_, ?_, ?_⟩ <;> linarith

/-- A bounded run has a cluster point. -/
theorem latent_cluster {s : ℕ → LSt J I n} {st : LSt J I n} {B : ℝ}
    (hbd : ∀ j, famSq ((s (j + 1)).Z - st.Z) ≤ B ∧ famSq ((s (j + 1)).W - st.W) ≤ B ∧
      famSq ((s (j + 1)).X - st.X) ≤ B ∧ famSq ((s (j + 1)).ZP - st.ZP) ≤ B ∧ famSq ((s (j + 1)).WP - st.WP) ≤ B ∧
      famSq ((s (j + 1)).XP - st.XP) ≤ B ∧ famSq ((s (j + 1)).UP - st.UP) ≤ B) :
    ∃ φ : ℕ → ℕ, StrictMono φ ∧ ∃ a : LSt J I n, a.R = st.R ∧ LTends s (fun j => φ j + 1) a := by
  have : FirstCountableTopology (Matrix n n ℝ) := inferInstanceAs (FirstCountableTopology (n → n → ℝ))
  obtain ⟨q, -, φ, hφ, hq⟩ := ((isCompact_famBall st.Z B).prod ((isCompact_famBall st.W B).prod
    ((isCompact_famBall st.X B).prod ((isCompact_famBall st.ZP B).prod ((isCompact_famBall st.WP B).prod
    ((isCompact_famBall st.XP B).prod (isCompact_famBall st.UP B))))))).tendsto_subseq
    (x := fun j => ((s (j + 1)).Z, (s (j + 1)).W, (s (j + 1)).X, (s (j + 1)).ZP, (s (j + 1)).WP, (s (j + 1)).XP,
      (s (j + 1)).UP))
    fun j => by
      obtain ⟨h1, h2, h3, h4, h5, h6, h7⟩ := hbd j
      exact ⟨h1, h2, h3, h4, h5, h6, h7⟩
  obtain ⟨z, w, x, zp, wp, xp, up⟩ := q
  have t1 := hq.fst_nhds
  have t2 := hq.snd_nhds
  have u1 := t2.fst_nhds
  have t3 := t2.snd_nhds
  have u2 := t3.fst_nhds
  have t4 := t3.snd_nhds
  have u3 := t4.fst_nhds
  have t5 := t4.snd_nhds
  have u4 := t5.fst_nhds
  have t6 := t5.snd_nhds
  have u5 := t6.fst_nhds
  have u6 := t6.snd_nhds
  simp only [Function.comp] at t1 u1 u2 u3 u4 u5 u6
  exact ⟨φ, hφ, ⟨st.R, z, w, x, zp, wp, xp, up⟩, rfl, t1, u1, u2, u3, u4, u5, u6⟩

theorem LTends.shift {s : ℕ → LSt J I n} (hd : LSteps s) {φ : ℕ → ℕ} (hφ : StrictMono φ) {a : LSt J I n}
    (h : LTends s φ a) : LTends s (fun j => φ j + 1) a :=
  ⟨tendsto_shift (u := fun j => (s j).Z) hd.z hφ h.z, tendsto_shift (u := fun j => (s j).W) hd.w hφ h.w,
    tendsto_shift (u := fun j => (s j).X) hd.x hφ h.x, tendsto_shift (u := fun j => (s j).ZP) hd.zp hφ h.zp,
    tendsto_shift (u := fun j => (s j).WP) hd.wp hφ h.wp, tendsto_shift (u := fun j => (s j).XP) hd.xp hφ h.xp,
    tendsto_shift (u := fun j => (s j).UP) hd.up hφ h.up⟩

theorem tendsto_famSq_sub {f : ℕ → J → Matrix n n ℝ} {A : J → Matrix n n ℝ} (hf : Tendsto f atTop (𝓝 A)) :
    Tendsto (fun j => famSq (f j - A)) atTop (𝓝 0) := by
  have := tendsto_famSq (hf.sub (tendsto_const_nhds (x := A)))
  rwa [sub_self, famSq_zero] at this

theorem latent_energy_zero {s : ℕ → LSt J I n} (hd : LSteps s) {φ : ℕ → ℕ} (hφ : StrictMono φ) {a : LSt J I n}
    (h : LTends s (fun j => φ j + 1) a) :
    Tendsto (fun j => lEnergy a (s (φ j)) (s (φ j + 1))) atTop (𝓝 0) := by
  unfold lEnergy
  have k1 := tendsto_famSq ((h.z.sub (tendsto_const_nhds (x := a.Z))).sub (h.w.sub (tendsto_const_nhds (x := a.W))))
  simp only [sub_self, famSq_zero] at k1
  have m := ((((((((((((tendsto_famSq_sub h.x).add (tendsto_famSq_sub h.xp)).add (tendsto_famSq_sub h.up)).add k1).add
    (tendsto_famSq_sub h.w)).add (tendsto_famSq_sub h.zp)).add (tendsto_famSq_sub h.wp)).add
    (hd.w.comp hφ.tendsto_atTop)).add ((hd.up.comp hφ.tendsto_atTop).const_mul 2)).add
    ((hd.wp.comp hφ.tendsto_atTop).const_mul 2)).add (hd.xp.comp hφ.tendsto_atTop)).add
    (hd.zp.comp hφ.tendsto_atTop))
  simp only [mul_zero, add_zero] at m
  exact m

theorem tendsto_of_bound {f : ℕ → J → Matrix n n ℝ} {A : J → Matrix n n ℝ} {V : ℕ → ℝ}
    (hlim : Tendsto V atTop (𝓝 0)) (h : ∀ j, famSq (f (j + 1) - A) ≤ V j) : Tendsto f atTop (𝓝 A) :=
  (tendsto_add_atTop_iff_nat 1).mp (tendsto_of_famSq (squeeze_zero (fun _ => famSq_nonneg _) h hlim))

/-- If the energy relative to `a` vanishes, the run tends to `a`. -/
theorem latent_of_energy {s : ℕ → LSt J I n} {a : LSt J I n}
    (hlim : Tendsto (fun j => lEnergy a (s j) (s (j + 1))) atTop (𝓝 0)) : LTends s (fun j => j) a := by
  have nn2 : ∀ j, 0 ≤ famSq ((s (j + 1)).X - a.X) ∧ 0 ≤ famSq ((s (j + 1)).XP - a.XP) ∧
      0 ≤ famSq ((s (j + 1)).UP - a.UP) ∧ 0 ≤ famSq (((s (j + 1)).Z - a.Z) - ((s (j + 1)).W - a.W)) ∧
      0 ≤ famSq ((s (j + 1)).W - a.W) ∧ 0 ≤ famSq ((s (j + 1)).ZP - a.ZP) ∧ 0 ≤ famSq ((s (j + 1)).WP - a.WP) ∧
      0 ≤ famSq ((s (j + 1)).W - (s j).W) ∧ 0 ≤ famSq ((s (j + 1)).UP - (s j).UP) ∧
      0 ≤ famSq ((s (j + 1)).WP - (s j).WP) ∧ 0 ≤ famSq ((s (j + 1)).XP - (s j).XP) ∧
      0 ≤ famSq ((s (j + 1)).ZP - (s j).ZP) := fun j =>
    ⟨famSq_nonneg _, famSq_nonneg _, famSq_nonneg _, famSq_nonneg _, famSq_nonneg _, famSq_nonneg _, famSq_nonneg _,
      famSq_nonneg _, famSq_nonneg _, famSq_nonneg _, famSq_nonneg _, famSq_nonneg _⟩
  have hWt : Tendsto (fun j => (s j).W) atTop (𝓝 a.W) := tendsto_of_bound hlim fun j => by
    obtain ⟨h1, h2, h3, h4, h5, h6, h7, h8, h9, h10, h11, h12⟩ := nn2 j
    unfold lEnergy; linarith
  have hvt : Tendsto (fun j => (s j).Z - (s j).W) atTop (𝓝 (a.Z - a.W)) := tendsto_of_bound hlim fun j => by
    obtain ⟨h1, h2, h3, h4, h5, h6, h7, h8, h9, h10, h11, h12⟩ := nn2 j
    have e : (s (j + 1)).Z - (s (j + 1)).W - (a.Z - a.W) = ((s (j + 1)).Z - a.Z) - ((s (j + 1)).W - a.W) := by abel
    rw [e]
    unfold lEnergy; linarith
  have hZt : Tendsto (fun j => (s j).Z) atTop (𝓝 a.Z) := by
    have := hvt.add hWt
    simpa only [sub_add_cancel] using this
  refine ⟨hZt, hWt, ?_, ?_, ?_, ?_, ?_⟩
  all_goals
    refine tendsto_of_bound hlim fun j => ?_
    obtain ⟨h1, h2, h3, h4, h5, h6, h7, h8, h9, h10, h11, h12⟩ := nn2 j
    unfold lEnergy
    linarith

/-- Convergence of the passes. -/
theorem latent_converges {p : LProb J I n} {rho mu : ℝ} (hr : 0 < rho) (hmu : rho < 2 * mu)
    {s : ℕ → LSt J I n} (hs : ∀ j, LPass p rho (s j) (s (j + 1))) {st : LSt J I n} (hst : LPass p rho st st)
    (hstrong : ∀ j, mu * famSq ((s (j + 1)).R - st.R) ≤
      famIn (p.grad (s (j + 1)).R - p.grad st.R) ((s (j + 1)).R - st.R))
    (hg : Continuous p.g) (hh : Continuous p.h) (hpsi : Continuous p.psi) (hphi : Continuous p.phi)
    (hDW : IsClosed p.DW) (hgrad : ContinuousAt p.grad st.R) :
    ∃ a, LPass p rho a a ∧ a.R = st.R ∧ Tendsto (fun j => (s j).R) atTop (𝓝 a.R) ∧ LTends s (fun j => j) a := by
  have hd := latent_steps hr hmu hs hst hstrong
  obtain ⟨-, bR, -, -⟩ := latent_budget hr hmu hs hst hstrong
  have hR : Tendsto (fun j => (s j).R) atTop (𝓝 st.R) :=
    (tendsto_add_atTop_iff_nat 2).mp (tendsto_of_famSq bR)
  obtain ⟨φ, hφ, a, haR, hta⟩ := latent_cluster (latent_bounded hr hmu hs hst hstrong)
  have hψ : StrictMono fun j => φ j + 1 := fun i j h => Nat.add_lt_add_right (hφ h) 1
  have hta' := hta.shift hd hψ
  have hR2 : Tendsto (fun j => (s (φ j + 1 + 1)).R) atTop (𝓝 st.R) :=
    ((tendsto_add_atTop_iff_nat 1).mpr hR).comp hψ.tendsto_atTop
  have hpa : LPass p rho a a := latent_limit hg hh hpsi hphi hDW (s := fun j => s (φ j + 1))
    (s' := fun j => s (φ j + 1 + 1)) (fun j => hs (φ j + 1)) (a := a) (by rw [haR]; exact hst.memR)
    (by rw [haR]; exact hgrad.tendsto.comp hR2) (by rw [haR]; exact hR2)
    hta.z hta'.z hta.w hta'.w hta.x hta'.x hta.zp hta'.zp hta.wp hta'.wp hta.xp hta'.xp hta.up hta'.up
  obtain ⟨anti2, -, -, -⟩ := latent_budget hr hmu hs hpa (by rw [haR]; exact hstrong)
  have hlim := tendsto_atTop_ciInf anti2 ⟨0, by rintro _ ⟨k, rfl⟩; exact lEnergy_nonneg _ _ _⟩
  have h0 := tendsto_nhds_unique (hlim.comp hφ.tendsto_atTop) (latent_energy_zero hd hφ hta)
  rw [h0] at hlim
  exact ⟨a, hpa, haR, by rw [haR]; exact hR, latent_of_energy hlim⟩

/-! ### Multipliers -/

/-- A minimiser of `h(d) + F(A d)` over a convex set has a multiplier: `u` is a subgradient of `F` at `A x0` and
`x0` minimises `h + u A` over the set. -/
theorem exists_split_multiplier {D E : Type*} [AddCommGroup D] [Module ℝ D] [AddCommGroup E] [Module ℝ E]
    (A : D →ₗ[ℝ] E) (C : Set D) (hC : ∀ x ∈ C, ∀ y ∈ C, ∀ t : ℝ, 0 ≤ t → t ≤ 1 → x + t • (y - x) ∈ C)
    (h : D → ℝ) (hh : ∀ x ∈ C, ∀ y ∈ C, ∀ t : ℝ, 0 ≤ t → t ≤ 1 → h (x + t • (y - x)) ≤ (1 - t) * h x + t * h y)
    (F : E → ℝ) (hF : ∀ X Y : E, ∀ t : ℝ, 0 ≤ t → t ≤ 1 → F (X + t • (Y - X)) ≤ (1 - t) * F X + t * F Y)
    {x0 : D} (hx0 : x0 ∈ C) (hmin : ∀ d ∈ C, h x0 + F (A x0) ≤ h d + F (A d)) :
    ∃ u : E →ₗ[ℝ] ℝ, (∀ z, F (A x0) + u (z - A x0) ≤ F z) ∧ ∀ d ∈ C, h x0 - u (A d - A x0) ≤ h d := by
  set w : C → E → ℝ := fun d y => h d + F (A d + y) with hw
  have hconv : ∀ (d1 d2 : C) (y1 y2 : E) (t : ℝ), 0 ≤ t → t ≤ 1 → ∃ d : C,
      w d (y1 + t • (y2 - y1)) ≤ (1 - t) * w d1 y1 + t * w d2 y2 := by
    intro d1 d2 y1 y2 t h0 h1
    refine ⟨⟨d1.1 + t • (d2.1 - d1.1), hC _ d1.2 _ d2.2 t h0 h1⟩, ?_⟩
    have a1 := hh _ d1.2 _ d2.2 t h0 h1
    have a2 := hF (A d1.1 + y1) (A d2.1 + y2) t h0 h1
    have e : A (d1.1 + t • (d2.1 - d1.1)) + (y1 + t • (y2 - y1)) =
        A d1.1 + y1 + t • (A d2.1 + y2 - (A d1.1 + y1)) := by
      rw [map_add, map_smul, map_sub]; module
    simp only [hw, e]
    linarith
  have hbelow : ∀ (d : C) (y : E), 2 * (h x0 + F (A x0)) - w ⟨x0, hx0⟩ (-y) ≤ w d y := by
    intro d y
    obtain ⟨d', hd'⟩ := hconv d ⟨x0, hx0⟩ y (-y) (1 / 2) (by norm_num) (by norm_num)
    have e : y + (1 / 2 : ℝ) • (-y - y) = 0 := by module
    rw [e] at hd'
    have := hmin d'.1 d'.2
    simp only [hw, add_zero] at hd' ⊢
    linarith
  have hbdd : ∀ y, BddBelow (Set.range fun d : C => w d y) := fun y => ⟨_, by
    rintro _ ⟨d, rfl⟩; exact hbelow d y⟩
  have hne : Nonempty C := ⟨⟨x0, hx0⟩⟩
  set v : E → ℝ := fun y => ⨅ d : C, w d y with hv
  have hv0 : v 0 = h x0 + F (A x0) := by
    refine le_antisymm ?_ (le_ciInf fun d => ?_)
    · have : v 0 ≤ w ⟨x0, hx0⟩ 0 := ciInf_le (hbdd 0) ⟨x0, hx0⟩
      simp only [hw, add_zero] at this
      exact this
    · have := hmin d.1 d.2
      simpa only [hw, add_zero] using this
  have hvconv : ∀ X Y : E, ∀ t : ℝ, 0 ≤ t → t ≤ 1 → v (X + t • (Y - X)) ≤ (1 - t) * v X + t * v Y := by
    intro X Y t h0 h1
    refine le_of_forall_pos_le_add fun ε hε => ?_
    obtain ⟨d1, hd1⟩ := exists_lt_of_ciInf_lt (show v X < v X + ε by linarith)
    obtain ⟨d2, hd2⟩ := exists_lt_of_ciInf_lt (show v Y < v Y + ε by linarith)
    obtain ⟨d, hd⟩ := hconv d1 d2 X Y t h0 h1
    have a1 := ciInf_le (hbdd (X + t • (Y - X))) d
    have a2 := mul_le_mul_of_nonneg_left hd1.le (show 0 ≤ 1 - t by linarith)
    have a3 := mul_le_mul_of_nonneg_left hd2.le h0
    have a4 : v (X + t • (Y - X)) ≤ w d (X + t • (Y - X)) := a1
    nlinarith
  obtain ⟨u, -, hu⟩ := exists_multiplier (D := PUnit.{1}) (0 : PUnit.{1} →ₗ[ℝ] E) (fun _ _ _ => rfl) v hvconv 0 0
    (fun d => by simp)
  have key : ∀ (d : C) (y : E), h x0 + F (A x0) + u y ≤ h d.1 + F (A d.1 + y) := by
    intro d y
    have a1 := hu y
    rw [zero_add, hv0] at a1
    exact a1.trans (ciInf_le (hbdd y) d)
  refine ⟨u, fun z => ?_, fun d hd => ?_⟩
  · have := key ⟨x0, hx0⟩ (z - A x0)
    simp only [add_sub_cancel] at this
    linarith
  · have := key ⟨d, hd⟩ (A x0 - A d)
    simp only [add_sub_cancel] at this
    rw [← neg_sub (A d) (A x0), map_neg] at this
    linarith

/-- The copies as a linear map. -/
def pullLin (ep : I → J) : (J → Matrix n n ℝ) →ₗ[ℝ] (I → Matrix n n ℝ) where
  toFun := pull ep
  map_add' _ _ := rfl
  map_smul' _ _ := rfl

theorem famIn_neg_left (A B : J → Matrix n n ℝ) : famIn (-A) B = -famIn A B := by
  have := famIn_smul_left (-1) A B
  rw [neg_one_smul, neg_one_mul] at this
  exact this

/-- Multipliers for the copies: a stationary state from the first-order conditions of the two blocks. -/
theorem latent_saddle {p : LProb J I n} {rho : ℝ} (hr : 0 < rho) (cg : ConvexFam p.g) (ch : ConvexFam p.h)
    (cpsi : ConvexFam p.psi) (cphi : ConvexFam p.phi)
    (hDW : ∀ x ∈ p.DW, ∀ y ∈ p.DW, ∀ t : ℝ, 0 ≤ t → t ≤ 1 → x + t • (y - x) ∈ p.DW)
    {Z W X : J → Matrix n n ℝ} (hR : Z - W ∈ p.DR)
    (hr0 : ∀ Y ∈ p.DR, famIn (p.grad (Z - W) + rho • X) (Y - (Z - W)) = 0)
    (hZ : ∀ Y, p.g Z + p.psi (pull p.ep Z) + rho * famIn X (Y - Z) ≤ p.g Y + p.psi (pull p.ep Y))
    (hWm : W ∈ p.DW)
    (hW : ∀ Y ∈ p.DW, p.h W + p.phi (pull p.ep W) - rho * famIn X (Y - W) ≤ p.h Y + p.phi (pull p.ep Y)) :
    ∃ XP UP, LPass p rho ⟨Z - W, Z, W, X, pull p.ep Z, pull p.ep W, XP, UP⟩
      ⟨Z - W, Z, W, X, pull p.ep Z, pull p.ep W, XP, UP⟩ := by
  have lin : ∀ (B x y : J → Matrix n n ℝ) (t : ℝ), famIn B (x + t • (y - x)) = (1 - t) * famIn B x + t * famIn B y := by
    intro B x y t
    rw [famIn_add_right, famIn_smul_right, famIn_sub_right]; ring
  obtain ⟨u, hu1, hu2⟩ := exists_split_multiplier (pullLin (n := n) p.ep) Set.univ (fun _ _ _ _ _ _ _ => trivial)
    (fun Y => p.g Y - rho * famIn X Y) (fun x _ y _ t h0 h1 => by
      have := cg x y t h0 h1
      simp only [lin]
      linarith) p.psi cpsi (x0 := Z) trivial (fun d _ => by
      have := hZ d
      rw [famIn_sub_right] at this
      change p.g Z - rho * famIn X Z + p.psi (pull p.ep Z) ≤ p.g d - rho * famIn X d + p.psi (pull p.ep d)
      linarith)
  obtain ⟨v, hv1, hv2⟩ := exists_split_multiplier (pullLin (n := n) p.ep) p.DW hDW
    (fun Y => p.h Y + rho * famIn X Y) (fun x _ y _ t h0 h1 => by
      have := ch x y t h0 h1
      simp only [lin]
      linarith) p.phi cphi (x0 := W) hWm (fun d hd => by
      have := hW d hd
      rw [famIn_sub_right] at this
      change p.h W + rho * famIn X W + p.phi (pull p.ep W) ≤ p.h d + rho * famIn X d + p.phi (pull p.ep d)
      linarith)
  obtain ⟨U, hU⟩ := exists_repr u
  obtain ⟨V, hV⟩ := exists_repr v
  have eU : ∀ z, u z = rho * famIn (rho⁻¹ • U) z := by
    intro z
    rw [hU, famIn_smul_left, ← mul_assoc, mul_inv_cancel₀ hr.ne', one_mul]; rfl
  have eV : ∀ z, v z = rho * famIn (rho⁻¹ • V) z := by
    intro z
    rw [hV, famIn_smul_left, ← mul_assoc, mul_inv_cancel₀ hr.ne', one_mul]; rfl
  refine ⟨rho⁻¹ • U, rho⁻¹ • V, hR, fun Y hY => ?_, fun Y => ?_, fun Y => ?_, hWm, fun Y hY => ?_, fun Y => ?_, ?_, ?_, ?_⟩
  · simp only [sub_self, add_zero, sub_zero]
    exact hr0 Y hY
  · simp only [sub_self, add_zero, sub_zero]
    have := hu2 Y trivial
    rw [eU] at this
    have e : (pullLin p.ep) Y - (pullLin p.ep) Z = pull p.ep (Y - Z) := rfl
    rw [e] at this
    rw [famIn_sub_right X]
    linarith
  · have := hu1 Y
    rw [eU] at this
    exact this
  · simp only [sub_self, add_zero]
    have := hv2 Y hY
    rw [eV] at this
    have e : (pullLin p.ep) Y - (pullLin p.ep) W = pull p.ep (Y - W) := rfl
    rw [e] at this
    rw [famIn_sub_right X]
    linarith
  · have := hv1 Y
    rw [eV] at this
    exact this
  · simp
  · simp
  · simp

end Verif.Lemmas
