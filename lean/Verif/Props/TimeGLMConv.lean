import Verif.Lemmas.RidgeAdmm
import Verif.Props.TimeGLM
import Verif.Props.Certificate

/-! Property theorems C154 (time-varying Ising and Poisson models: convergence of the solver and what its history
certifies). -/

namespace Verif.Props

open Verif.Model Verif.Spec Verif.Lemmas Matrix Filter Topology

set_option autoImplicit false
set_option linter.unusedSectionVars false

variable {n : Type*} [Fintype n] [DecidableEq n] {k : ℕ} {E : Type*} [Fintype E]

/-! ### The passes -/

/-- The time a copy belongs to. -/
def pairEp (g : TimePairs k E) : E ⊕ E → Fin k := Sum.elim g.src g.dst

/-- The coupling on the copies. -/
def pairPen (w : E → ℝ) (psi : Matrix n n ℝ → ℝ) (Z : E ⊕ E → Matrix n n ℝ) : ℝ :=
  ∑ e, w e * psi (Z (Sum.inr e) - Z (Sum.inl e))

theorem pairPen_convex {w : E → ℝ} (hw : ∀ e, 0 ≤ w e) {psi : Matrix n n ℝ → ℝ} (hconv : ConvexPen psi) :
    ConvexFam (pairPen w psi) := by
  intro X Y s h0 h1
  unfold pairPen
  rw [Finset.mul_sum, Finset.mul_sum, ← Finset.sum_add_distrib]
  refine Finset.sum_le_sum fun e _ => ?_
  have h := hconv (X (Sum.inr e) - X (Sum.inl e)) (Y (Sum.inr e) - Y (Sum.inl e)) s h0 h1
  have e1 : (X + s • (Y - X)) (Sum.inr e) - (X + s • (Y - X)) (Sum.inl e) =
      X (Sum.inr e) - X (Sum.inl e) + s • (Y (Sum.inr e) - Y (Sum.inl e) - (X (Sum.inr e) - X (Sum.inl e))) := by
    change X (Sum.inr e) + s • (Y (Sum.inr e) - X (Sum.inr e)) - (X (Sum.inl e) + s • (Y (Sum.inl e) - X (Sum.inl e))) = _
    simp only [smul_sub]
    abel
  rw [e1]
  have := mul_le_mul_of_nonneg_left h (hw e)
  linarith

theorem pairPen_continuous {w : E → ℝ} {psi : Matrix n n ℝ → ℝ} (hconv : ConvexPen psi) :
    Continuous (pairPen w psi) := by
  unfold pairPen
  exact continuous_finsetSum _ fun e _ => continuous_const.mul
    ((ConvexPen.continuous hconv).comp ((continuous_apply _).sub (continuous_apply _)))

theorem famNorm_pair (A B : E → Matrix n n ℝ) : famNorm (Sum.elim A B) = Real.sqrt (pairSq A + pairSq B) := by
  unfold famNorm
  rw [Fintype.sum_sum_type]
  rfl

theorem pairPen_lipschitz {w : E → ℝ} (hw : ∀ e, 0 ≤ w e) {psi : Matrix n n ℝ → ℝ} {L : ℝ} (hL0 : 0 ≤ L)
    (hL : LipschitzPen L psi) (Y Z : E ⊕ E → Matrix n n ℝ) :
    pairPen w psi Y ≤ pairPen w psi Z + (2 * L * ∑ e, w e) * famNorm (fun i => Y i - Z i) := by
  have h := copyPen_lipschitz (k := 0) (alpha := 0) le_rfl hw hL hL0 (Sum.elim (fun t => t.elim0) Y)
    (Sum.elim (fun t => t.elim0) Z)
  unfold copyPen copyConst at h
  simp only [zero_mul, zero_add, Sum.elim_inr] at h
  have e : famNorm (fun i : Copy 0 E => (Sum.elim (fun t : Fin 0 => t.elim0) Y i : Matrix n n ℝ)
      - Sum.elim (fun t : Fin 0 => t.elim0) Z i) = famNorm (fun i => Y i - Z i) := by
    unfold famNorm
    rw [Fintype.sum_sum_type]
    simp
  rw [e] at h
  exact h

theorem famNorm_pairCopies {g : TimePairs k E} (hg : Covers g (fun _ => (k : ℝ)) n) (D : Batch k n) :
    famNorm (fun i => D (pairEp g i)) ≤ Real.sqrt k * famNorm D := by
  refine le_trans (Real.sqrt_le_sqrt ?_) (famNorm_copies (g := g) hg (d := k) (fun _ => le_rfl) (Nat.cast_nonneg k) D)
  rw [sum_copy, Fintype.sum_sum_type]
  exact le_add_of_nonneg_left (Finset.sum_nonneg fun _ _ => frobSq_nonneg _)

/-- The estimates of the next pass. -/
theorem tgA_inner (g : TimePairs k E) (hg : Covers g (fun _ => (k : ℝ)) n) (s : TGState k E n) {K D : Batch k n}
    (hD : ∀ t, (D t).IsSymm) (rho : ℝ) :
    ∑ t, frobInner ((rho * k) • (tgA g s t - K t)) (D t) =
      -(rho * (∑ i, frobInner (K (pairEp g i) - (Sum.elim s.ZL s.ZR : E ⊕ E → Matrix n n ℝ) i
        + (Sum.elim s.UL s.UR : E ⊕ E → Matrix n n ℝ) i) (D (pairEp g i)) + ∑ t, frobInner (K t) (D t))) := by
  have h1 : ∀ t, frobInner ((rho * k) • (tgA g s t - K t)) (D t) =
      rho * (frobInner (scatter g.src (fun e => s.ZL e - s.UL e) t) (D t)
        + frobInner (scatter g.dst (fun e => s.ZR e - s.UR e) t) (D t)
        - (frobInner (K t) (D t) + frobInner (scatter g.src (fun e => K (g.src e)) t) (D t)
          + frobInner (scatter g.dst (fun e => K (g.dst e)) t) (D t))) := by
    intro t
    have hk : (k : ℝ) ≠ 0 := by
      have : 0 < k := t.pos
      exact_mod_cast this.ne'
    have hc : (k : ℝ) • K t = K t + scatter g.src (fun e => K (g.src e)) t + scatter g.dst (fun e => K (g.dst e)) t :=
      (hg K t).symm
    have e1 : (rho * k) • (tgA g s t - K t) = rho • (symmetrize (scatter g.src (fun e => s.ZL e - s.UL e) t
        + scatter g.dst (fun e => s.ZR e - s.UR e) t) - (k : ℝ) • K t) := by
      unfold tgA
      rw [symmetrize_smul, mul_smul, smul_sub, smul_smul, mul_inv_cancel₀ hk, one_smul]
    rw [e1, hc, frobInner_smul_left, frobInner_sub_left, frobInner_symmetrize (hD t), frobInner_add_left,
      frobInner_add_left, frobInner_add_left]
  rw [Finset.sum_congr rfl fun t _ => h1 t, ← Finset.mul_sum, Finset.sum_sub_distrib, Finset.sum_add_distrib,
    Finset.sum_add_distrib, Finset.sum_add_distrib, sum_scatter, sum_scatter, sum_scatter, sum_scatter,
    Fintype.sum_sum_type, ← mul_neg]
  congr 1
  have e2 : ∀ e, frobInner (K (pairEp g (Sum.inl e)) - (Sum.elim s.ZL s.ZR : E ⊕ E → Matrix n n ℝ) (Sum.inl e)
      + (Sum.elim s.UL s.UR : E ⊕ E → Matrix n n ℝ) (Sum.inl e)) (D (pairEp g (Sum.inl e))) =
      frobInner (K (g.src e)) (D (g.src e)) - frobInner (s.ZL e - s.UL e) (D (g.src e)) := by
    intro e
    rw [← frobInner_sub_left]
    change frobInner (K (g.src e) - s.ZL e + s.UL e) _ = _
    congr 1
    abel
  have e3 : ∀ e, frobInner (K (pairEp g (Sum.inr e)) - (Sum.elim s.ZL s.ZR : E ⊕ E → Matrix n n ℝ) (Sum.inr e)
      + (Sum.elim s.UL s.UR : E ⊕ E → Matrix n n ℝ) (Sum.inr e)) (D (pairEp g (Sum.inr e))) =
      frobInner (K (g.dst e)) (D (g.dst e)) - frobInner (s.ZR e - s.UR e) (D (g.dst e)) := by
    intro e
    rw [← frobInner_sub_left]
    change frobInner (K (g.dst e) - s.ZR e + s.UR e) _ = _
    congr 1
    abel
  rw [Finset.sum_congr rfl fun e _ => e2 e, Finset.sum_congr rfl fun e _ => e3 e, Finset.sum_sub_distrib,
    Finset.sum_sub_distrib]
  ring

theorem tgA_symm (g : TimePairs k E) (s : TGState k E n) (t : Fin k) : (tgA g s t).IsSymm := symmetrize_isSymm _

/-- One pass of the solver with exact inner fits. -/
theorem tg_pass {g : TimePairs k E} (hg : Covers g (fun _ => (k : ℝ)) n) (a : TGArgs k E n) (hw : ∀ e, 0 ≤ a.weight e)
    {F : Fin k → Matrix n n ℝ → ℝ} (hF : ∀ t, ConvexPen (F t))
    (hin : ∀ t A rho, 0 < rho → A.IsSymm → IsMin {X : Matrix n n ℝ | X.IsSymm}
      (fun X => F t X + rho * k / 2 * frobSq (X - A)) (a.inner t A rho))
    (hconv : ConvexPen a.psi) (hprox : IsProxOf a.psi a.prox) {s : TGState k E n} (hr : 0 < s.rho) :
    RidgePass (pairEp g) F (pairPen a.weight a.psi) s.rho (tgNext g a s).K (Sum.elim s.ZL s.ZR) (Sum.elim s.UL s.UR)
      (Sum.elim (tgNext g a s).ZL (tgNext g a s).ZR) (Sum.elim (tgNext g a s).UL (tgNext g a s).UR) := by
  set s' := tgNext g a s with hs'
  have hKs : ∀ t, (s'.K t).IsSymm := fun t => (hin t _ _ hr (tgA_symm g s t)).1
  refine ⟨hKs, fun Y hY => ?_, ?_, fun Y => ?_⟩
  · have hD : ∀ t, (Y t - s'.K t).IsSymm := fun t => by rw [IsSymm, transpose_sub, (hY t).eq, (hKs t).eq]
    have h1 := Finset.sum_le_sum (s := Finset.univ) fun t (_ : t ∈ Finset.univ) =>
      symm_min_subgrad (hF t) (hin t _ _ hr (tgA_symm g s t)) (hY t)
    rw [Finset.sum_add_distrib] at h1
    have h2 := tgA_inner g hg s (K := s'.K) (D := fun t => Y t - s'.K t) hD s.rho
    change ∑ t, F t (s'.K t) + ∑ t, frobInner ((s.rho * k) • (tgA g s t - s'.K t)) (Y t - s'.K t) ≤ _ at h1
    rw [h2] at h1
    linarith
  · rintro (e | e) <;> rfl
  · have hsub := copySub_next g (alpha := 0) le_rfl hr hw hconv hprox (K := s'.K) (U0 := 0)
      (Z0 := fun t => tglZ0 0 s.rho (s'.K t) 0) (UL := s.UL) (UR := s.UR) (ZL := s'.ZL) (ZR := s'.ZR) hKs
      (fun _ => rfl) (fun _ => rfl) (fun _ => rfl)
    have h1 := hsub.2 (Sum.elim (fun t => tglZ0 0 s.rho (s'.K t) 0) Y) hsub.1
    unfold copyPen at h1
    rw [sum_copy] at h1
    have e0 : ∀ t, frobInner ((copies (fun t => (0 : Batch k n) t + (s'.K t - tglZ0 0 s.rho (s'.K t) 0))
        (fun e => s.UL e + (s'.K (g.src e) - s'.ZL e)) (fun e => s.UR e + (s'.K (g.dst e) - s'.ZR e)) :
          Copy k E → Matrix n n ℝ) (Sum.inl t))
        ((Sum.elim (fun t => tglZ0 0 s.rho (s'.K t) 0) Y : Copy k E → Matrix n n ℝ) (Sum.inl t)
          - copies (fun t => tglZ0 0 s.rho (s'.K t) 0) s'.ZL s'.ZR (Sum.inl t)) = 0 := by
      intro t
      change frobInner _ (tglZ0 0 s.rho (s'.K t) 0 - tglZ0 0 s.rho (s'.K t) 0) = 0
      rw [sub_self]
      simp [frobInner]
    rw [Finset.sum_congr rfl fun t _ => e0 t, Finset.sum_const_zero, zero_add, zero_mul, zero_mul, zero_add, zero_add]
      at h1
    rw [Fintype.sum_sum_type]
    exact h1

/-- The documented problem plus `rho/2 ∑ ‖K_t‖²`. -/
theorem ridgeObjective_kernel (F : Fin k → Matrix n n ℝ → ℝ) (kernel : Option (Fin k → Fin k → ℝ))
    (psi : Matrix n n ℝ → ℝ) (rho : ℝ) (K : Batch k n) :
    ridgeObjective (pairEp (allPairs k)) F (pairPen (kernelWeight kernel) psi) rho K =
      ∑ t, F t (K t) + kernelCoupling (kernelOf kernel) psi K + rho / 2 * ∑ t, frobSq (K t) := by
  unfold ridgeObjective
  rw [kernelCoupling_eq]
  rfl

theorem kernelWeight_nonneg {kernel : Option (Fin k → Fin k → ℝ)} (hker : ∀ s t, s < t → 0 ≤ kernelOf kernel s t)
    (e : PairIdx k) : 0 ≤ kernelWeight kernel e := by
  have := hker e.1.1 e.1.2 e.2
  cases kernel <;> exact this

theorem tg_run_facts (g : TimePairs k E) (a : TGArgs k E n) (hi : 0 < a.rhoOptions.tauInc)
    (hd : 0 < a.rhoOptions.tauDec) {rho : ℝ} (hr : 0 < rho) (j : ℕ) :
    0 < (stateAt (tgBody g a) (tgInit rho) j).rho ∧
      (stateAt (tgBody g a) (tgInit rho) j).ZLold = (stateAt (tgBody g a) (tgInit rho) j).ZL ∧
      (stateAt (tgBody g a) (tgInit rho) j).ZRold = (stateAt (tgBody g a) (tgInit rho) j).ZR := by
  refine stateAt_invariant _ (fun s : TGState k E n => 0 < s.rho ∧ s.ZLold = s.ZL ∧ s.ZRold = s.ZR) (fun it s hs => ?_)
    ⟨hr, rfl, rfl⟩ j
  unfold tgBody
  simp only
  split
  · exact ⟨hs.1, rfl, rfl⟩
  · exact ⟨updateRho_pos hi hd hs.1 _ _, rfl, rfl⟩

theorem tg_rho_const (g : TimePairs k E) (a : TGArgs k E n) (hi : a.rhoOptions.tauInc = 1)
    (hd : a.rhoOptions.tauDec = 1) (rho : ℝ) (j : ℕ) : (stateAt (tgBody g a) (tgInit rho) j).rho = rho := by
  refine stateAt_invariant _ (fun s : TGState k E n => s.rho = rho) (fun it s hs => ?_) rfl j
  unfold tgBody
  simp only
  split
  · exact hs
  · exact (updateRho_const hi hd _ _ _).trans hs

theorem quad_bound {rho sn d D : ℝ} (hr : 0 < rho) (hd : 0 ≤ d) :
    sn * (Real.sqrt d * D) ≤ d * sn ^ 2 / (2 * rho) + rho / 2 * D ^ 2 := by
  have h1 := sq_nonneg (Real.sqrt d * sn - rho * D)
  have h2 := Real.sq_sqrt hd
  have h3 : d * sn ^ 2 / (2 * rho) + rho / 2 * D ^ 2 - sn * (Real.sqrt d * D) =
      (Real.sqrt d * sn - rho * D) ^ 2 / (2 * rho) := by
    rw [sub_sq, mul_pow, h2]
    field_simp
    ring
  have h4 : 0 ≤ (Real.sqrt d * sn - rho * D) ^ 2 / (2 * rho) := by positivity
  linarith

/-- C154, certificate: if the inner fits solve their regularised problems exactly, the last entry `c` of the history
of every call (with penalties that adapt or not, whether it ended by the tolerance or by `max_iter`) bounds the error of
the RETURNED networks `K`: with `C = 2 L (sum of the kernel above the diagonal)`, `L` the Lipschitz constant of the
temporal penalty, and `r` the penalty parameter of the last iteration, the objective at `K` exceeds its minimum by at
most `2 C rnorm + k snorm²/(2r)` and the squared distance from the optimum is at most `4 C rnorm/r + k snorm²/r²`.
The objective is the documented one plus `r/2 ∑ ‖K_t‖²` (`C124_rho_false`). Ending by the tolerances bounds `snorm` by the tolerances
alone. -/
theorem C154_certificate (a : TGArgs k Empty n) (kernel : Option (Fin k → Fin k → ℝ))
    (hker : ∀ s t, s < t → 0 ≤ kernelOf kernel s t) (F : Fin k → Matrix n n ℝ → ℝ) (hF : ∀ t, ConvexPen (F t))
    (hin : ∀ t A rho, 0 < rho → A.IsSymm → IsMin {X : Matrix n n ℝ | X.IsSymm}
      (fun X => F t X + rho * k / 2 * frobSq (X - A)) (a.inner t A rho))
    (hconv : ConvexPen a.psi) (hprox : IsProxOf a.psi a.prox) {L : ℝ} (hL0 : 0 ≤ L) (hL : LipschitzPen L a.psi)
    (hi : 0 < a.rhoOptions.tauInc) (hd : 0 < a.rhoOptions.tauDec) (hrt : 0 ≤ a.rtol) {rho : ℝ} (hr : 0 < rho) (m : ℕ)
    {K : Batch k n} {hist : List TGLCheck} {it : ℕ} {warned : Bool}
    (hcall : fitTimeGLM (allPairs k) (tgArgsOf a kernel) rho m true true = .ok K (some hist) (some it) warned)
    {C : ℝ} (hC : C = 2 * L * ∑ s, ∑ t, if s < t then kernelOf kernel s t else 0) :
    ∃ (c : TGLCheck) (r : ℝ), hist.getLast? = some c ∧ 0 < r ∧
      (a.rhoOptions.tauInc = 1 → a.rhoOptions.tauDec = 1 → r = rho) ∧ K ∈ SymmSeq k n ∧
      (∀ X ∈ SymmSeq k n, ∑ t, F t (K t) + kernelCoupling (kernelOf kernel) a.psi K + r / 2 * ∑ t, frobSq (K t) ≤
        ∑ t, F t (X t) + kernelCoupling (kernelOf kernel) a.psi X + r / 2 * ∑ t, frobSq (X t)
          + 2 * C * c.rnorm + k * c.snorm ^ 2 / (2 * r)) ∧
      (∀ X, IsMin (SymmSeq k n) (fun X => ∑ t, F t (X t) + kernelCoupling (kernelOf kernel) a.psi X
          + r / 2 * ∑ t, frobSq (X t)) X →
        ∑ t, frobSq (K t - X t) ≤ 4 * C * c.rnorm / r + k * c.snorm ^ 2 / r ^ 2) ∧
      (warned = false → a.stopAt = none → c.rnorm ≤ c.ePri ∧
        c.snorm ≤ Fintype.card n * k * a.tol + a.rtol * C) := by
  have hcall' := hcall
  unfold fitTimeGLM at hcall'
  simp only [if_true] at hcall'
  set b := tgArgsOf a kernel with hb
  have hw : ∀ e : PairIdx k, 0 ≤ b.weight e := kernelWeight_nonneg hker
  cases hl : (runLoop (tgBody (allPairs k) b) m (tgInit rho)).lastIter with
  | none => rw [hl] at hcall'; simp at hcall'
  | some j =>
    rw [hl] at hcall'
    simp only [KTReturn.ok.injEq, Option.some.injEq] at hcall'
    obtain ⟨h1, h3, h4, h5⟩ := hcall'
    obtain ⟨l1, l2, l3⟩ := runLoop_last (tgBody (allPairs k) b) m (tgInit rho) hl
    set s := stateAt (tgBody (allPairs k) b) (tgInit rho) j with hs
    obtain ⟨hrs, o1, o2⟩ := tg_run_facts (allPairs k) b hi hd hr j
    rw [← hs] at hrs o1 o2
    have hK : K = (tgNext (allPairs k) b s).K := by
      rw [← h1, l1]
      change (tgBody (allPairs k) b j s).1.K = _
      unfold tgBody; simp only; split <;> rfl
    have hc : checkAt (tgBody (allPairs k) b) (tgInit rho) j = tgDiagnose (allPairs k) b s (tgNext (allPairs k) b s) := rfl
    have hpass := tg_pass (covers_all (n := n)) b hw hF hin hconv hprox hrs
    have hW : 0 ≤ ∑ e : PairIdx k, b.weight e := Finset.sum_nonneg fun e _ => hw e
    have hCe : 2 * L * ∑ e : PairIdx k, b.weight e = C := by
      rw [hC, ← sum_pairIdx (k := k) fun s t => kernelOf kernel s t]
      congr 1
      refine Finset.sum_congr rfl fun e _ => ?_
      cases kernel <;> rfl
    have hC0 : 0 ≤ C := by rw [← hCe]; positivity
    obtain ⟨b3, b4⟩ := hpass.bound hrs hC0
      (fun Y Z => by rw [← hCe]; exact pairPen_lipschitz hw hL0 hL Y Z) (famNorm_pairCopies covers_all)
    set c := checkAt (tgBody (allPairs k) b) (tgInit rho) j with hcd
    have hrn : famNorm (fun i => (tgNext (allPairs k) b s).K (pairEp (allPairs k) i)
        - Sum.elim (tgNext (allPairs k) b s).ZL (tgNext (allPairs k) b s).ZR i) = c.rnorm := by
      have e : (fun i => (tgNext (allPairs k) b s).K (pairEp (allPairs k) i)
        - Sum.elim (tgNext (allPairs k) b s).ZL (tgNext (allPairs k) b s).ZR i) =
          Sum.elim ((fun e => (tgNext (allPairs k) b s).K ((allPairs k).src e)) - (tgNext (allPairs k) b s).ZL)
            ((fun e => (tgNext (allPairs k) b s).K ((allPairs k).dst e)) - (tgNext (allPairs k) b s).ZR) := by
        funext i; rcases i with e | e <;> rfl
      rw [e, famNorm_pair, hc]
      rfl
    have hsn : s.rho * famNorm (fun i => (Sum.elim (tgNext (allPairs k) b s).ZL (tgNext (allPairs k) b s).ZR :
        PairIdx k ⊕ PairIdx k → Matrix n n ℝ) i - Sum.elim s.ZL s.ZR i) = c.snorm := by
      have e : (fun i => (Sum.elim (tgNext (allPairs k) b s).ZL (tgNext (allPairs k) b s).ZR :
        PairIdx k ⊕ PairIdx k → Matrix n n ℝ) i - Sum.elim s.ZL s.ZR i) =
          Sum.elim ((tgNext (allPairs k) b s).ZL - s.ZL) ((tgNext (allPairs k) b s).ZR - s.ZR) := by
        funext i; rcases i with e | e <;> rfl
      rw [e, famNorm_pair, hc]
      unfold tgDiagnose
      simp only [o1, o2]
    have hfd : ∀ X : Batch k n, famNorm (fun t => X t - K t) ^ 2 = ∑ t, frobSq (X t - K t) := fun X =>
      Real.sq_sqrt (Finset.sum_nonneg fun _ _ => frobSq_nonneg _)
    rw [hrn, hsn, ← hK] at b4
    have hKs : ∀ t, (K t).IsSymm := by rw [hK]; exact hpass.symm
    have hbw : b.weight = kernelWeight kernel := rfl
    have hbp : b.psi = a.psi := rfl
    refine ⟨c, s.rho, ?_, hrs, fun hi' hd' => tg_rho_const (allPairs k) b hi' hd' rho j, hKs, fun X hX => ?_, fun X hX => ?_,
      fun hwn hsa => ?_⟩
    · rw [← h3, List.getLast?_cons, l2]; rfl
    · have h6 := b4 X hX
      have h7 := quad_bound (sn := c.snorm) (D := famNorm fun t => X t - K t) hrs (Nat.cast_nonneg k)
      rw [hfd] at h7
      rw [hbw, hbp, ridgeObjective_kernel, ridgeObjective_kernel] at h6
      linarith
    · have hX' : IsMin {K : Batch k n | ∀ t, (K t).IsSymm}
          (ridgeObjective (pairEp (allPairs k)) F (pairPen b.weight b.psi) s.rho) X := by
        refine ⟨hX.1, fun Y hY => ?_⟩
        have := hX.2 Y hY
        rw [hbw, hbp, ridgeObjective_kernel, ridgeObjective_kernel]
        exact this
      have h6 := b4 X hX.1
      have h7 := quad_bound (sn := c.snorm) (D := famNorm fun t => X t - K t) hrs (Nat.cast_nonneg k)
      rw [hfd] at h7
      have h8 := ridge_growth (P := pairPen b.weight b.psi) hF (pairPen_convex hw hconv) hX' hKs
      have e : ∑ t, frobSq (X t - K t) = ∑ t, frobSq (K t - X t) :=
        Finset.sum_congr rfl fun t _ => by rw [← frobSq_neg, neg_sub]
      rw [e] at h6 h7
      have h9 : s.rho / 2 * ∑ t, frobSq (K t - X t) ≤ 2 * C * c.rnorm + k * c.snorm ^ 2 / (2 * s.rho) := by linarith
      have h10 := mul_le_mul_of_nonneg_left h9 (show 0 ≤ 2 / s.rho by positivity)
      have e1 : 2 / s.rho * (s.rho / 2 * ∑ t, frobSq (K t - X t)) = ∑ t, frobSq (K t - X t) := by field_simp
      have e2 : 2 / s.rho * (2 * C * c.rnorm + k * c.snorm ^ 2 / (2 * s.rho)) =
          4 * C * c.rnorm / s.rho + k * c.snorm ^ 2 / s.rho ^ 2 := by field_simp; ring
      rwa [e1, e2] at h10
    · have hbk : (runLoop (tgBody (allPairs k) b) m (tgInit rho)).broke = true := by
        rw [hwn] at h5
        simpa using h5
      have hstop := l3 hbk
      change (tgBody (allPairs k) b j s).2.2 = true at hstop
      have hsb : b.stopAt = none := hsa
      unfold tgBody at hstop
      simp only [hsb, stopAtTest, Bool.false_or, decide_eq_true_eq] at hstop
      rw [hc]
      refine ⟨hstop.1, hstop.2.trans ?_⟩
      rw [famNorm_pair] at b3
      unfold tgDiagnose
      simp only
      rw [mul_assoc b.rtol]
      exact add_le_add le_rfl (mul_le_mul_of_nonneg_left b3 hrt)

/-! ### Convergence at a constant penalty -/

/-- The state before iteration `j`. -/
noncomputable def tgSt (g : TimePairs k E) (a : TGArgs k E n) (rho : ℝ) (j : ℕ) : TGState k E n :=
  (tgNext g a)^[j] (tgInit rho)

theorem tgSt_succ (g : TimePairs k E) (a : TGArgs k E n) (rho : ℝ) (j : ℕ) :
    tgSt g a rho (j + 1) = tgNext g a (tgSt g a rho j) := Function.iterate_succ_apply' _ _ _

theorem tgSt_rho (g : TimePairs k E) (a : TGArgs k E n) (rho : ℝ) (j : ℕ) : (tgSt g a rho j).rho = rho := by
  induction j with
  | zero => rfl
  | succ j ih => rw [tgSt_succ]; exact ih

theorem tgSt_old (g : TimePairs k E) (a : TGArgs k E n) (rho : ℝ) (j : ℕ) :
    (tgSt g a rho j).ZLold = (tgSt g a rho j).ZL ∧ (tgSt g a rho j).ZRold = (tgSt g a rho j).ZR := by
  cases j with
  | zero => exact ⟨rfl, rfl⟩
  | succ j => rw [tgSt_succ]; exact ⟨rfl, rfl⟩

theorem stateAt_tg (g : TimePairs k E) {a : TGArgs k E n} (hi : a.rhoOptions.tauInc = 1)
    (hd : a.rhoOptions.tauDec = 1) {rho : ℝ} (hr : rho ≠ 0) (j : ℕ) :
    stateAt (tgBody g a) (tgInit rho) j = tgSt g a rho j := by
  induction j with
  | zero => rfl
  | succ j ih =>
    change (tgBody g a j (stateAt (tgBody g a) (tgInit rho) j)).1 = _
    rw [ih, tgSt_succ]
    unfold tgBody
    simp only [updateRho_const hi hd]
    split
    · rfl
    · have hrr : (tgNext g a (tgSt g a rho j)).rho = (tgSt g a rho j).rho := rfl
      unfold tgRescale
      simp only [hrr, div_self (show (tgSt g a rho j).rho ≠ 0 by rw [tgSt_rho]; exact hr), one_smul]
      rw [← hrr]

/-- The stopping test of iteration `j`, without `stop_at`. -/
theorem tgStop_iff (g : TimePairs k E) {a : TGArgs k E n} (hi : a.rhoOptions.tauInc = 1)
    (hd : a.rhoOptions.tauDec = 1) (hst : a.stopAt = none) {rho : ℝ} (hr : rho ≠ 0) (j : ℕ) :
    Lemmas.stopAt (tgBody g a) (tgInit rho) j = true ↔
      (tgDiagnose g a (tgSt g a rho j) (tgSt g a rho (j + 1))).rnorm ≤
        (tgDiagnose g a (tgSt g a rho j) (tgSt g a rho (j + 1))).ePri ∧
      (tgDiagnose g a (tgSt g a rho j) (tgSt g a rho (j + 1))).snorm ≤
        (tgDiagnose g a (tgSt g a rho j) (tgSt g a rho (j + 1))).eDual := by
  unfold Lemmas.stopAt
  rw [stateAt_tg g hi hd hr, tgSt_succ]
  unfold tgBody
  simp only [hst, stopAtTest, Bool.false_or, decide_eq_true_eq]

theorem tendsto_of_sum_frobSq {f : ℕ → Batch k n} {X : Batch k n}
    (h : Tendsto (fun j => ∑ t, frobSq (f j t - X t)) atTop (𝓝 0)) (t : Fin k) :
    Tendsto (fun j => f j t) atTop (𝓝 (X t)) := by
  refine tendsto_of_frobSq (squeeze_zero (fun j => frobSq_nonneg _) (fun j => ?_) h)
  exact Finset.single_le_sum (f := fun t => frobSq (f j t - X t)) (fun t _ => frobSq_nonneg _) (Finset.mem_univ t)

/-- C154, convergence: at a constant penalty (`tau_inc = tau_dec = 1`) with inner fits that solve their regularised
problems exactly, convex losses and a convex temporal penalty with exact prox, the solver of the time-varying Ising and
Poisson models converges for every `rho > 0`: the documented problem plus `rho/2 ∑ ‖K_t‖²` has exactly one optimum, for
positive `tol` every call with `max_iter` large enough ends without the warning, and for tolerances small enough the
returned networks are as close to that optimum as desired. -/
theorem C154_converges_partial [Nonempty n] (hk : 0 < k) (a : TGArgs k Empty n) (kernel : Option (Fin k → Fin k → ℝ))
    (hker : ∀ s t, s < t → 0 ≤ kernelOf kernel s t) (F : Fin k → Matrix n n ℝ → ℝ) (hF : ∀ t, ConvexPen (F t))
    (hin : ∀ t A rho, 0 < rho → A.IsSymm → IsMin {X : Matrix n n ℝ | X.IsSymm}
      (fun X => F t X + rho * k / 2 * frobSq (X - A)) (a.inner t A rho))
    (hconv : ConvexPen a.psi) (hprox : IsProxOf a.psi a.prox) (hi : a.rhoOptions.tauInc = 1)
    (hd : a.rhoOptions.tauDec = 1) (hst : a.stopAt = none) {rho : ℝ} (hr : 0 < rho) :
    ∃ X, UniqueMin (SymmSeq k n) (fun X => ∑ t, F t (X t) + kernelCoupling (kernelOf kernel) a.psi X
        + rho / 2 * ∑ t, frobSq (X t)) X ∧
      (0 < a.tol → 0 ≤ a.rtol → ∃ M, ∀ m, M ≤ m → ∀ rh rn, ∃ K h it,
        fitTimeGLM (allPairs k) (tgArgsOf a kernel) rho m rh rn = .ok K h it false) ∧
      ∀ ε, 0 < ε → ∃ δ, 0 < δ ∧ ∃ M, ∀ tol rtol, 0 ≤ tol → tol ≤ δ → 0 ≤ rtol → rtol ≤ δ → ∀ m, M ≤ m →
        ∀ rh rn, ∃ K h it w,
          fitTimeGLM (allPairs k) (tgArgsOf { a with tol := tol, rtol := rtol } kernel) rho m rh rn = .ok K h it w
            ∧ CloseSeq ε K X := by
  set b := tgArgsOf a kernel with hb
  set g := allPairs k with hg
  have hw : ∀ e : PairIdx k, 0 ≤ b.weight e := kernelWeight_nonneg hker
  have hPc := pairPen_convex (n := n) hw hconv
  obtain ⟨X, hX⟩ := ridge_exists (ep := pairEp g) hF hPc (pairPen_continuous hconv) hr
  obtain ⟨V, hV⟩ := ridge_saddle hF hPc hr hX
  have hrun : RidgeRun (pairEp g) F (pairPen b.weight a.psi) rho (fun j => (tgSt g b rho (j + 1)).K)
      (fun j => Sum.elim (tgSt g b rho j).ZL (tgSt g b rho j).ZR)
      (fun j => Sum.elim (tgSt g b rho j).UL (tgSt g b rho j).UR) := by
    refine ⟨fun j => ?_⟩
    have h := tg_pass (covers_all (n := n)) b hw hF hin hconv hprox (s := tgSt g b rho j)
      (by rw [tgSt_rho]; exact hr)
    rw [tgSt_rho] at h
    simp only [tgSt_succ]
    exact h
  obtain ⟨c1, c2, c3⟩ := hrun.converges hr hV
  have hpri : ∀ j, ∑ i, frobSq ((tgSt g b rho (j + 1)).K (pairEp g i)
      - (Sum.elim (tgSt g b rho (j + 1)).ZL (tgSt g b rho (j + 1)).ZR : PairIdx k ⊕ PairIdx k → Matrix n n ℝ) i) =
      pairSq ((fun e => (tgSt g b rho (j + 1)).K (g.src e)) - (tgSt g b rho (j + 1)).ZL)
        + pairSq ((fun e => (tgSt g b rho (j + 1)).K (g.dst e)) - (tgSt g b rho (j + 1)).ZR) := by
    intro j; rw [Fintype.sum_sum_type]; rfl
  have hdual : ∀ j, ∑ i, frobSq ((Sum.elim (tgSt g b rho (j + 1)).ZL (tgSt g b rho (j + 1)).ZR :
      PairIdx k ⊕ PairIdx k → Matrix n n ℝ) i - Sum.elim (tgSt g b rho j).ZL (tgSt g b rho j).ZR i) =
      pairSq ((tgSt g b rho (j + 1)).ZL - (tgSt g b rho j).ZLold)
        + pairSq ((tgSt g b rho (j + 1)).ZR - (tgSt g b rho j).ZRold) := by
    intro j; rw [Fintype.sum_sum_type, (tgSt_old g b rho j).1, (tgSt_old g b rho j).2]; rfl
  have hsize : (0 : ℝ) < Fintype.card n * k := by
    have h1 : (0 : ℝ) < Fintype.card n := by exact_mod_cast Fintype.card_pos
    have h2 : (0 : ℝ) < k := by exact_mod_cast hk
    positivity
  have hcall : ∀ (b' : TGArgs k (PairIdx k) n) (m : ℕ) (rh rn : Bool), 1 ≤ m → ∃ h it,
      fitTimeGLM g b' rho m rh rn = .ok (runLoop (tgBody g b') m (tgInit rho)).state.K h it
        (!(runLoop (tgBody g b') m (tgInit rho)).broke) := by
    intro b' m rh rn hm
    obtain ⟨it, hit⟩ := runLoop_lastIter (tgBody g b') (tgInit rho) hm
    unfold fitTimeGLM
    simp only
    rw [hit]
    cases rn
    · exact ⟨_, _, rfl⟩
    · exact ⟨_, _, rfl⟩
  refine ⟨X, ⟨hX.1, fun Y hY hne => ?_⟩, fun htol hrtol => ?_, fun ε hε => ?_⟩
  · have h1 := ridge_growth hF hPc hX hY
    have hbw : b.weight = kernelWeight kernel := rfl
    rw [hbw, hg, ridgeObjective_kernel, ridgeObjective_kernel] at h1
    have hpos : 0 < ∑ t, frobSq (Y t - X t) := by
      obtain ⟨t0, ht0⟩ : ∃ t, Y t ≠ X t := by
        by_contra hc
        push Not at hc
        exact hne (funext hc)
      exact Finset.sum_pos' (fun t _ => frobSq_nonneg _) ⟨t0, Finset.mem_univ _, frobSq_pos_of_ne ht0⟩
    have := mul_pos hr hpos
    simp only
    linarith
  · have e1 := eventually_sqrt_le c2 (b := Fintype.card n * k * a.tol) (by positivity)
    have e2 := eventually_sqrt_le c3 (b := Fintype.card n * k * a.tol / rho) (by positivity)
    obtain ⟨J, hJ⟩ := eventually_atTop.mp (e1.and e2)
    obtain ⟨h1, h2⟩ := hJ J le_rfl
    have hstop : Lemmas.stopAt (tgBody g b) (tgInit rho) J = true := by
      rw [tgStop_iff g (a := b) hi hd hst hr.ne']
      rw [hpri] at h1
      rw [hdual] at h2
      unfold tgDiagnose
      simp only [tgSt_rho]
      constructor
      · exact h1.trans (le_add_of_nonneg_right (mul_nonneg hrtol (le_max_of_le_left (Real.sqrt_nonneg _))))
      · rw [le_div_iff₀ hr, mul_comm] at h2
        exact h2.trans (le_add_of_nonneg_right (mul_nonneg (mul_nonneg hrtol hr.le) (Real.sqrt_nonneg _)))
    refine ⟨J + 1, fun m hm rh rn => ?_⟩
    obtain ⟨h, it, hc⟩ := hcall b m rh rn (by omega)
    rw [runLoop_broke _ _ hstop (by omega)] at hc
    exact ⟨_, h, it, hc⟩
  · have hev : ∀ᶠ j in atTop, CloseSeq ε (tgSt g b rho j).K X := by
      have h1 := closeSeq_eventually (fun t => tendsto_of_sum_frobSq c1 t) hε
      obtain ⟨J, hJ⟩ := eventually_atTop.mp h1
      refine eventually_atTop.mpr ⟨J + 1, fun j hj => ?_⟩
      have := hJ (j - 1) (by omega)
      simpa [Nat.sub_add_cancel (show 1 ≤ j by omega)] using this
    obtain ⟨δ, hδ, hacc⟩ := accuracy_of_limit hev (c := Fintype.card n * k)
      (r := fun j => (tgDiagnose g b (tgSt g b rho j) (tgSt g b rho (j + 1))).rnorm)
      (s := fun j => (tgDiagnose g b (tgSt g b rho j) (tgSt g b rho (j + 1))).snorm)
      (A := fun j => max (Real.sqrt (pairSq (tgSt g b rho (j + 1)).ZL + pairSq (tgSt g b rho (j + 1)).ZR))
        (Real.sqrt (batchSq (tgSt g b rho (j + 1)).K + (pairSq (fun e => (tgSt g b rho (j + 1)).K (g.src e))
            + pairSq (fun e => (tgSt g b rho (j + 1)).K (g.dst e))))))
      (B := fun j => rho * Real.sqrt (pairSq (tgSt g b rho (j + 1)).UL + pairSq (tgSt g b rho (j + 1)).UR))
      (fun j => Real.sqrt_nonneg _)
      (fun j => mul_nonneg (by rw [tgSt_rho]; exact hr.le) (Real.sqrt_nonneg _))
      (fun j h1 h2 => by
        have p1 := (Real.sqrt_eq_zero (add_nonneg (sum_frobSq_nonneg _) (sum_frobSq_nonneg _))).mp h1
        have h2' := (mul_eq_zero.mp h2).resolve_left (by rw [tgSt_rho]; exact hr.ne')
        have p2 := (Real.sqrt_eq_zero (add_nonneg (sum_frobSq_nonneg _) (sum_frobSq_nonneg _))).mp h2'
        have q1 := (hpri j).trans p1
        have q2 := (hdual j).trans p2
        have z1 : ∀ i, (tgSt g b rho (j + 1)).K (pairEp g i) = (Sum.elim (tgSt g b rho (j + 1)).ZL
            (tgSt g b rho (j + 1)).ZR : PairIdx k ⊕ PairIdx k → Matrix n n ℝ) i := fun i =>
          sub_eq_zero.mp ((frobSq_eq_zero_iff _).mp
            ((Finset.sum_eq_zero_iff_of_nonneg fun i _ => frobSq_nonneg _).mp q1 i (Finset.mem_univ _)))
        have z2 : ∀ i, (Sum.elim (tgSt g b rho (j + 1)).ZL (tgSt g b rho (j + 1)).ZR :
            PairIdx k ⊕ PairIdx k → Matrix n n ℝ) i = Sum.elim (tgSt g b rho j).ZL (tgSt g b rho j).ZR i := fun i =>
          sub_eq_zero.mp ((frobSq_eq_zero_iff _).mp
            ((Finset.sum_eq_zero_iff_of_nonneg fun i _ => frobSq_nonneg _).mp q2 i (Finset.mem_univ _)))
        have hdec := (hrun.pass j).decrease hr hV
        have hU := (hrun.pass j).dual
        have e1 : ridgeLyap (pairEp g) X V (Sum.elim (tgSt g b rho (j + 1)).ZL (tgSt g b rho (j + 1)).ZR)
            (Sum.elim (tgSt g b rho (j + 1)).UL (tgSt g b rho (j + 1)).UR) =
            ridgeLyap (pairEp g) X V (Sum.elim (tgSt g b rho j).ZL (tgSt g b rho j).ZR)
              (Sum.elim (tgSt g b rho j).UL (tgSt g b rho j).UR) := by
          unfold ridgeLyap
          refine Finset.sum_congr rfl fun i _ => ?_
          rw [hU i, z1 i, sub_self, add_zero, z2 i]
        rw [e1] at hdec
        have n1 : 0 ≤ ∑ i, frobSq ((Sum.elim (tgSt g b rho j).ZL (tgSt g b rho j).ZR :
          PairIdx k ⊕ PairIdx k → Matrix n n ℝ) i - (tgSt g b rho (j + 1)).K (pairEp g i)) := sum_frobSq_nonneg _
        have n2 : ∑ t, frobSq ((tgSt g b rho (j + 1)).K t - X t) = 0 :=
          le_antisymm (by linarith) (sum_frobSq_nonneg _)
        intro t i l
        have n3 := sub_eq_zero.mp ((frobSq_eq_zero_iff _).mp
          ((Finset.sum_eq_zero_iff_of_nonneg fun i _ => frobSq_nonneg _).mp n2 t (Finset.mem_univ _)))
        rw [n3, sub_self, abs_zero]
        exact hε.le)
    obtain ⟨M, hM⟩ := eventually_atTop.mp hev
    refine ⟨δ, hδ, max M 1, fun tol rtol t0 t1 r0 r1 m hm rh rn => ?_⟩
    set b' := tgArgsOf { a with tol := tol, rtol := rtol } kernel with hb'
    obtain ⟨h, it, hc⟩ := hcall b' m rh rn (le_of_max_le_right hm)
    refine ⟨_, h, it, _, hc, ?_⟩
    have hsame : ∀ j, tgSt g b' rho j = tgSt g b rho j := fun j => rfl
    refine runLoop_property (tgBody g b') (tgInit rho) (Q := fun s => CloseSeq ε s.K X) (M := M)
      (fun j hj => ?_) (fun j hj => ?_) (le_of_max_le_left hm)
    · rw [stateAt_tg g (a := b') hi hd hr.ne', hsame]
      exact hM j hj
    · rw [tgStop_iff g (a := b') hi hd hst hr.ne', hsame, hsame] at hj
      rw [stateAt_tg g (a := b') hi hd hr.ne', hsame]
      refine hacc tol rtol t0 t1 r0 r1 j hj.1 ?_
      refine hj.2.trans (le_of_eq ?_)
      unfold tgDiagnose
      simp only [tgSt_rho]
      rw [mul_assoc b'.rtol]
      rfl

/-- The hypotheses of `C154_certificate` and `C154_converges_partial` are met, for any number of times: squared losses with the
exact inner fit, the l1 coupling, and a call that returns. -/
example (B : Fin k → Matrix (Fin 2) (Fin 2) ℝ) (hB : ∀ t, (B t).IsSymm) {rho : ℝ} :
    ∃ (a : TGArgs k Empty (Fin 2)) (F : Fin k → Matrix (Fin 2) (Fin 2) ℝ → ℝ) (L : ℝ), (∀ t, ConvexPen (F t)) ∧
      (∀ t A rho, 0 < rho → A.IsSymm → IsMin {X : Matrix (Fin 2) (Fin 2) ℝ | X.IsSymm}
        (fun X => F t X + rho * k / 2 * frobSq (X - A)) (a.inner t A rho)) ∧ ConvexPen a.psi ∧
      IsProxOf a.psi a.prox ∧ 0 ≤ L ∧ LipschitzPen L a.psi ∧ a.rhoOptions.tauInc = 1 ∧ a.rhoOptions.tauDec = 1 ∧
      0 < a.tol ∧ 0 ≤ a.rtol ∧ a.stopAt = none ∧ ∀ m, 1 ≤ m → ∃ K hist it warned,
        fitTimeGLM (allPairs k) (tgArgsOf a none) rho m true true = .ok K (some hist) (some it) warned := by
  let a : TGArgs k Empty (Fin 2) :=
    { inner := fun t A r => (1 + r * k)⁻¹ • (B t + (r * k) • A), loss := fun _ _ => 0, alpha := 0, weight := fun _ => 0
      psi := absSumMat, prox := softThresholdingMat, tol := 1, rtol := 1, rhoOptions := { tauInc := 1, tauDec := 1 } }
  refine ⟨a, fun t X => 1 / 2 * frobSq (X - B t), Fintype.card (Fin 2), fun t X Y s h0 h1 => ?_, fun t A r hr hA => ?_,
    absSumMat_convexPen, soft_isProxOf, Nat.cast_nonneg _, absSumMat_lipschitz, rfl, rfl, one_pos, zero_le_one, rfl,
    fun m hm => ?_⟩
  · have e : X + s • (Y - X) - B t = (X - B t) + s • ((Y - B t) - (X - B t)) := by
      rw [sub_sub_sub_cancel_right]; abel
    have e2 : frobSq (Y - B t) = frobSq (X - B t) + 2 * frobInner (X - B t) ((Y - B t) - (X - B t))
        + frobSq ((Y - B t) - (X - B t)) := by
      have := frobSq_add (X - B t) ((Y - B t) - (X - B t))
      rwa [add_sub_cancel] at this
    have e3 := frobSq_nonneg ((Y - B t) - (X - B t))
    simp only
    rw [e, e2, frobSq_add, frobSq_smul, frobInner_smul_right]
    nlinarith [mul_nonneg h0 (sub_nonneg.mpr h1), mul_nonneg (mul_nonneg h0 (sub_nonneg.mpr h1)) e3]
  · set q : ℝ := r * k with hq
    have hq0 : 0 ≤ q := by positivity
    set Q : Matrix (Fin 2) (Fin 2) ℝ := (1 + q)⁻¹ • (B t + q • A) with hQ
    have hcr : (Q - B t) + q • (Q - A) = 0 := by
      have h1 : (1 + q) • Q = B t + q • A := by
        rw [hQ, smul_smul, mul_inv_cancel₀ (by positivity), one_smul]
      have h2 : (Q - B t) + q • (Q - A) = (1 + q) • Q - (B t + q • A) := by
        rw [add_smul, one_smul, smul_sub]; abel
      rw [h2, h1, sub_self]
    refine ⟨?_, fun X hX => ?_⟩
    · change Q.IsSymm
      rw [hQ, IsSymm, transpose_smul, transpose_add, transpose_smul, (hB t).eq, hA.eq]
    · change 1 / 2 * frobSq (Q - B t) + q / 2 * frobSq (Q - A) ≤ 1 / 2 * frobSq (X - B t) + q / 2 * frobSq (X - A)
      have e1 : X - B t = (Q - B t) + (X - Q) := by abel
      have e2 : X - A = (Q - A) + (X - Q) := by abel
      have e3 : frobInner (Q - B t) (X - Q) + q * frobInner (Q - A) (X - Q) = 0 := by
        rw [← frobInner_smul_left, ← frobInner_add_left, hcr, frobInner_zero_left']
      rw [e1, e2, frobSq_add, frobSq_add]
      have := frobSq_nonneg (X - Q)
      have := mul_nonneg hq0 this
      linarith
  · obtain ⟨it, hit⟩ := runLoop_lastIter (tgBody (allPairs k) (tgArgsOf a none)) (tgInit rho) hm
    unfold fitTimeGLM
    simp only [if_true]
    rw [hit]
    exact ⟨_, _, _, _, rfl⟩

end Verif.Props
