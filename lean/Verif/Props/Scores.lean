import Verif.Model.Scores
import Verif.Lemmas.Spectral
import Mathlib.Analysis.Complex.ExponentialBounds
import Mathlib.LinearAlgebra.Matrix.Determinant.Basic

/-! Property theorems C39, C61, C62: information criteria of `regain/scores.py`. -/

namespace Verif.Props

open Verif.Model Verif.Lemmas Matrix

set_option autoImplicit false
set_option linter.unusedSectionVars false

variable {n : Type*} [Fintype n] [DecidableEq n]

/-! Specification: edges and the penalised log-likelihood. -/

open Classical in
/-- The number of ordered pairs of distinct variables joined by a non-zero entry
(twice the number of edges of the graph). -/
noncomputable def offDiagNonzero (K : Matrix n n ℝ) : ℕ :=
  (Finset.univ.filter fun e : n × n => e.1 ≠ e.2 ∧ K e.1 e.2 ≠ 0).card

/-- Gaussian log-likelihood (no constant) minus `c` per ordered connected pair. -/
noncomputable def penalised (S K : Matrix n n ℝ) (c : ℝ) : ℝ :=
  Real.log K.det - ∑ i, ∑ j, S i j * K i j - c * offDiagNonzero K

theorem ofNonzero_eq (K : Matrix n n ℝ) (hd : ∀ i, K i i ≠ 0) :
    ofNonzero K = offDiagNonzero K := by
  classical
  have h : (Finset.univ.filter fun e : n × n => K e.1 e.2 ≠ 0) =
      (Finset.univ.filter fun e : n × n => e.1 ≠ e.2 ∧ K e.1 e.2 ≠ 0) ∪
        Finset.univ.image fun i : n => (i, i) := by
    ext ⟨i, j⟩
    simp only [Finset.mem_filter, Finset.mem_univ, true_and, Finset.mem_union, Finset.mem_image,
      Prod.mk.injEq]
    constructor
    · intro h
      by_cases hij : i = j
      · exact Or.inr ⟨i, rfl, hij⟩
      · exact Or.inl ⟨hij, h⟩
    · rintro (⟨_, h⟩ | ⟨k, rfl, rfl⟩)
      · exact h
      · exact hd k
  have hdisj : Disjoint (Finset.univ.filter fun e : n × n => e.1 ≠ e.2 ∧ K e.1 e.2 ≠ 0)
      (Finset.univ.image fun i : n => (i, i)) := by
    rw [Finset.disjoint_left]
    rintro ⟨i, j⟩ h1 h2
    simp only [Finset.mem_filter, Finset.mem_image, Prod.mk.injEq] at h1 h2
    obtain ⟨k, _, rfl, rfl⟩ := h2
    exact h1.2.1 rfl
  have hcard : countNonzero K = offDiagNonzero K + Fintype.card n := by
    unfold countNonzero offDiagNonzero
    have e : (Finset.univ.image fun i : n => (i, i)).card = Fintype.card n := by
      rw [Finset.card_image_of_injective _ (fun a b h => (Prod.mk.inj h).1), Finset.card_univ]
    rw [← e, ← Finset.card_union_of_disjoint hdisj, ← h]
  unfold ofNonzero
  rw [hcard]; push_cast; ring

theorem logLikelihood_posDef (S K : Matrix n n ℝ) (hK : K.PosDef) :
    logLikelihood S K = .fin (Real.log K.det - ∑ i, ∑ j, S i j * K i j) := by
  unfold logLikelihood logdetXF
  rw [if_pos hK.det_pos]
  simp [XF.sub, XF.add, XF.neg, sub_eq_add_neg]

theorem ebicPenalty_fin (N eps v d : ℝ) (hN : 0 < N) (hv : 0 < v) :
    ebicPenalty N eps v d = .fin ((Real.log N + 4 * eps * Real.log v) / N * d) := by
  unfold ebicPenalty logXF
  rw [if_pos hN, if_pos hv]
  simp only [XF.div, XF.mul, XF.add, ne_eq, hN.ne', not_false_eq_true, if_true]
  congr 1
  ring

/-- C39: `BIC` is the log-likelihood minus one per ordered connected pair. -/
theorem C39_bic_value (S K : Matrix n n ℝ) (hK : K.PosDef) : bic S K = .fin (penalised S K 1) := by
  unfold bic penalised
  rw [logLikelihood_posDef S K hK, ofNonzero_eq K fun i => hK.diag_pos.ne']
  simp [XF.sub, XF.add, XF.neg, sub_eq_add_neg]

/-- C39: `EBIC` is the log-likelihood minus `(log n + 4 epsilon log p)/n` per ordered connected pair. -/
theorem C39_ebic_value [Nonempty n] (S K : Matrix n n ℝ) (hK : K.PosDef) (N eps : ℝ) (hN : 0 < N) :
    ebic S K N eps = .fin (penalised S K
      ((Real.log N + 4 * eps * Real.log (Fintype.card n)) / N)) := by
  unfold ebic penalised
  rw [logLikelihood_posDef S K hK, ofNonzero_eq K fun i => hK.diag_pos.ne',
    ebicPenalty_fin _ _ _ _ hN (by exact_mod_cast Fintype.card_pos)]
  simp [XF.sub, XF.add, XF.neg, sub_eq_add_neg]

/-- C39: `EBIC_m` the same with `log (p (p-1) / 2)`, for at least two variables. -/
theorem C39_ebicM_value [Nontrivial n] (S K : Matrix n n ℝ) (hK : K.PosDef) (N eps : ℝ) (hN : 0 < N) :
    ebicM S K N eps = .fin (penalised S K
      ((Real.log N + 4 * eps * Real.log ((Fintype.card n : ℝ) * (Fintype.card n - 1) / 2)) / N)) := by
  have hp : (1 : ℝ) < Fintype.card n := by exact_mod_cast Fintype.one_lt_card
  unfold ebicM penalised
  simp only
  rw [logLikelihood_posDef S K hK, ofNonzero_eq K fun i => hK.diag_pos.ne',
    ebicPenalty_fin _ _ _ _ hN (by have : 0 < (Fintype.card n : ℝ) - 1 := by linarith
                                   positivity)]
  simp [XF.sub, XF.add, XF.neg, sub_eq_add_neg]

/-- C39: for one variable `EBIC_m` of any positive definite matrix is nan (it takes `log 0`
times zero edges). -/
theorem C39_ebicM_single (S K : Matrix (Fin 1) (Fin 1) ℝ) (hK : K.PosDef) (N eps : ℝ) (hN : 0 < N)
    (he : 0 < eps) : ebicM S K N eps = .nan := by
  have hd : ofNonzero K = 0 := by
    rw [ofNonzero_eq K fun i => hK.diag_pos.ne']
    unfold offDiagNonzero
    simp
  unfold ebicM
  simp only
  rw [logLikelihood_posDef S K hK, hd]
  have : ((Fintype.card (Fin 1) : ℝ) * ((Fintype.card (Fin 1) : ℝ) - 1) / 2) = 0 := by simp
  rw [this]
  simp [ebicPenalty, logXF, hN, XF.div, XF.mul, XF.add, XF.sub, XF.neg, he, hN.ne', hN.le]

/-- C39: a larger `epsilon` never gives a better score. -/
theorem C39_ebic_antitone [Nonempty n] (S K : Matrix n n ℝ) (hK : K.PosDef) (N e1 e2 : ℝ) (hN : 0 < N)
    (he : e1 ≤ e2) : ∃ a b, ebic S K N e1 = .fin a ∧ ebic S K N e2 = .fin b ∧ b ≤ a := by
  refine ⟨_, _, C39_ebic_value S K hK N e1 hN, C39_ebic_value S K hK N e2 hN, ?_⟩
  unfold penalised
  have hp : 0 ≤ Real.log (Fintype.card n : ℝ) :=
    Real.log_nonneg (by exact_mod_cast Fintype.card_pos)
  have : (Real.log N + 4 * e1 * Real.log (Fintype.card n)) / N ≤
      (Real.log N + 4 * e2 * Real.log (Fintype.card n)) / N := by
    apply div_le_div_of_nonneg_right _ hN.le
    nlinarith
  have := mul_le_mul_of_nonneg_right this (Nat.cast_nonneg (α := ℝ) (offDiagNonzero K))
  linarith

theorem ofNonzero_submatrix (K : Matrix n n ℝ) (s : Equiv.Perm n) :
    ofNonzero (K.submatrix s s) = ofNonzero K := by
  classical
  unfold ofNonzero countNonzero
  congr 2
  refine Finset.card_bij (fun e _ => (s e.1, s e.2)) ?_ ?_ ?_
  · intro e he
    rw [Finset.mem_filter] at he ⊢
    exact ⟨Finset.mem_univ _, he.2⟩
  · intro a _ b _ h
    simp only [Prod.mk.injEq, EmbeddingLike.apply_eq_iff_eq] at h
    exact Prod.ext h.1 h.2
  · intro b hb
    rw [Finset.mem_filter] at hb
    refine ⟨(s.symm b.1, s.symm b.2), ?_, by simp⟩
    rw [Finset.mem_filter]
    refine ⟨Finset.mem_univ _, ?_⟩
    simpa using hb.2

theorem logLikelihood_submatrix (S K : Matrix n n ℝ) (s : Equiv.Perm n) :
    logLikelihood (S.submatrix s s) (K.submatrix s s) = logLikelihood S K := by
  unfold logLikelihood logdetXF
  rw [det_submatrix_equiv_self]
  congr 2
  simp only [submatrix_apply]
  rw [Equiv.sum_comp s fun i => ∑ j, S i (s j) * K i (s j)]
  exact Finset.sum_congr rfl fun i _ => Equiv.sum_comp s fun j => S i j * K i j

/-- C39: no score depends on the order of the variables (any matrices, positive definite or not). -/
theorem C39_relabel (S K : Matrix n n ℝ) (s : Equiv.Perm n) (N eps : ℝ) :
    bic (S.submatrix s s) (K.submatrix s s) = bic S K ∧
    ebic (S.submatrix s s) (K.submatrix s s) N eps = ebic S K N eps ∧
    ebicM (S.submatrix s s) (K.submatrix s s) N eps = ebicM S K N eps := by
  simp [bic, ebic, ebicM, logLikelihood_submatrix, ofNonzero_submatrix]

theorem xf_sub_fold {T : ℕ} (f : Fin T → XF) (c : Fin T → ℝ) (l : List (Fin T)) (acc : XF) (s : ℝ) :
    l.foldl (fun a t => XF.add a (XF.sub (f t) (.fin (c t)))) (XF.sub acc (.fin s)) =
      XF.sub (l.foldl (fun a t => XF.add a (f t)) acc) (.fin (s + (l.map c).sum)) := by
  induction l generalizing acc s with
  | nil => simp
  | cons t l ih =>
    have h : XF.add (XF.sub acc (.fin s)) (XF.sub (f t) (.fin (c t))) =
        XF.sub (XF.add acc (f t)) (.fin (s + c t)) := by
      cases acc <;> cases f t <;> simp [XF.sub, XF.add, XF.neg]
      ring
    rw [List.foldl_cons, List.foldl_cons, h, ih, List.map_cons, List.sum_cons, add_assoc]

theorem xf_sum_sub {T : ℕ} (f : Fin T → XF) (c : Fin T → ℝ) :
    XF.sum (fun t => XF.sub (f t) (.fin (c t))) = XF.sub (XF.sum f) (.fin (∑ t, c t)) := by
  unfold XF.sum
  have := xf_sub_fold f c (List.finRange T) (.fin 0) 0
  rw [zero_add, ← Fin.sum_univ_def] at this
  rw [← this]
  congr 1
  simp [XF.sub, XF.add, XF.neg]

theorem ofNonzeroT_eq {T : ℕ} (K : Batch T n) : ofNonzeroT K = ∑ t, ofNonzero (K t) := by
  unfold ofNonzeroT ofNonzero
  rw [Finset.sum_sub_distrib]
  push_cast
  simp
  ring

/-- C39: `BIC_t` is the sum of the scores of the time points (infinite values included). -/
theorem C39_bicT_sum {T : ℕ} (S K : Batch T n) : bicT S K = XF.sum fun t => bic (S t) (K t) := by
  unfold bicT bic
  rw [xf_sum_sub, ofNonzeroT_eq]
  rfl

/-- Non-vacuity for C39: a positive definite matrix on two variables. -/
example : (1 : Matrix (Fin 2) (Fin 2) ℝ).PosDef := PosDef.one

/-! ### C61: the EBIC scores are documented to penalise more than BIC -/

/-- C61 is false: with the default `n = 100`, `epsilon = 0.5` and up to `2^64` variables, `EBIC` is
strictly larger (penalises less) than `BIC` for every positive definite precision with an edge. -/
theorem C61_ebic_false [Nonempty n] (hn : Fintype.card n ≤ 2 ^ 64) (S K : Matrix n n ℝ) (hK : K.PosDef)
    (hedge : ∃ i j, i ≠ j ∧ K i j ≠ 0) :
    ∃ a b, bic S K = .fin a ∧ ebic S K = .fin b ∧ a < b := by
  refine ⟨_, _, C39_bic_value S K hK, C39_ebic_value S K hK 100 (1 / 2) (by norm_num), ?_⟩
  unfold penalised
  have hpos : 0 < offDiagNonzero K := by
    obtain ⟨i, j, h1, h2⟩ := hedge
    exact Finset.card_pos.mpr ⟨(i, j), by simp [h1, h2]⟩
  have hlog2 := Real.log_two_lt_d9
  have h100 : Real.log 100 ≤ 7 * Real.log 2 := by
    have : Real.log (100 : ℝ) ≤ Real.log ((2 : ℝ) ^ 7) :=
      Real.log_le_log (by norm_num) (by norm_num)
    rw [Real.log_pow] at this
    exact_mod_cast this
  have hp : Real.log (Fintype.card n) ≤ 64 * Real.log 2 := by
    have : Real.log (Fintype.card n : ℝ) ≤ Real.log ((2 : ℝ) ^ 64) :=
      Real.log_le_log (by exact_mod_cast Fintype.card_pos) (by exact_mod_cast hn)
    rw [Real.log_pow] at this
    exact_mod_cast this
  have hc : (Real.log 100 + 4 * (1 / 2) * Real.log (Fintype.card n)) / 100 < 1 := by
    rw [div_lt_one (by norm_num)]; linarith
  have := mul_lt_mul_of_pos_right hc (Nat.cast_pos (α := ℝ).2 hpos)
  linarith

/-- C61: for every sample size the score with `epsilon = 0` is strictly larger than `BIC`
(`log n / n < 1`). -/
theorem C61_ebic_zero_false [Nonempty n] (S K : Matrix n n ℝ) (hK : K.PosDef) (N : ℝ) (hN : 0 < N)
    (hedge : ∃ i j, i ≠ j ∧ K i j ≠ 0) :
    ∃ a b, bic S K = .fin a ∧ ebic S K N 0 = .fin b ∧ a < b := by
  refine ⟨_, _, C39_bic_value S K hK, C39_ebic_value S K hK N 0 hN, ?_⟩
  unfold penalised
  have hpos : 0 < offDiagNonzero K := by
    obtain ⟨i, j, h1, h2⟩ := hedge
    exact Finset.card_pos.mpr ⟨(i, j), by simp [h1, h2]⟩
  have hc : (Real.log N + 4 * 0 * Real.log (Fintype.card n)) / N < 1 := by
    rw [div_lt_one hN]
    have := Real.log_le_sub_one_of_pos hN
    linarith
  have := mul_lt_mul_of_pos_right hc (Nat.cast_pos (α := ℝ).2 hpos)
  linarith

/-- C61 (partial): `EBIC_m` does penalise at least as much as `EBIC` from three variables on
(`epsilon ≥ 0`). Missing: the comparison with `BIC`, which is false. -/
theorem C61_ebicM_partial [Nontrivial n] (h3 : 3 ≤ Fintype.card n) (S K : Matrix n n ℝ) (hK : K.PosDef)
    (N eps : ℝ) (hN : 0 < N) (he : 0 ≤ eps) :
    ∃ a b, ebicM S K N eps = .fin a ∧ ebic S K N eps = .fin b ∧ a ≤ b := by
  refine ⟨_, _, C39_ebicM_value S K hK N eps hN, C39_ebic_value S K hK N eps hN, ?_⟩
  unfold penalised
  have h3' : (3 : ℝ) ≤ Fintype.card n := by exact_mod_cast h3
  have hl : Real.log (Fintype.card n : ℝ) ≤
      Real.log ((Fintype.card n : ℝ) * (Fintype.card n - 1) / 2) := by
    apply Real.log_le_log (by linarith)
    nlinarith
  have : (Real.log N + 4 * eps * Real.log (Fintype.card n)) / N ≤
      (Real.log N + 4 * eps * Real.log ((Fintype.card n : ℝ) * (Fintype.card n - 1) / 2)) / N := by
    apply div_le_div_of_nonneg_right _ hN.le
    nlinarith
  have := mul_le_mul_of_nonneg_right this (Nat.cast_nonneg (α := ℝ) (offDiagNonzero K))
  linarith

/-- Non-vacuity for C61: a positive definite matrix with an edge. -/
example : ∃ K : Matrix (Fin 2) (Fin 2) ℝ, K.PosDef ∧ ∃ i j, i ≠ j ∧ K i j ≠ 0 := by
  refine ⟨!![2, 1; 1, 2], ?_, 0, 1, by decide, by simp⟩
  refine PosDef.of_dotProduct_mulVec_pos ?_ fun x hx => ?_
  · ext i j; fin_cases i <;> fin_cases j <;> simp
  · have hne : x 0 ≠ 0 ∨ x 1 ≠ 0 := by
      by_contra h
      push Not at h
      exact hx (by ext i; fin_cases i; exacts [h.1, h.2])
    simp only [dotProduct, mulVec, Fin.sum_univ_two, Pi.star_apply, star_trivial, of_apply,
      cons_val_zero, cons_val_one, cons_val']
    simp
    rcases hne with h | h
    · nlinarith [sq_nonneg (x 0 + x 1), sq_nonneg (x 1), pow_pos (sq_pos_of_ne_zero h) 1, sq_pos_of_ne_zero h]
    · nlinarith [sq_nonneg (x 0 + x 1), sq_nonneg (x 0), sq_pos_of_ne_zero h]

/-! ### C62: the `_t` version of EBIC against the sum of per-time scores -/

theorem xf_sum_fin {T : ℕ} (f : Fin T → XF) (g : Fin T → ℝ) (h : ∀ t, f t = .fin (g t)) :
    XF.sum f = .fin (∑ t, g t) := by
  have hz : f = fun t => XF.sub (.fin 0) (.fin (-g t)) := by
    funext t; rw [h]; simp [XF.sub, XF.add, XF.neg]
  rw [hz, xf_sum_sub]
  have : ∀ l : List (Fin T), l.foldl (fun acc _ => XF.add acc (.fin 0)) (.fin 0) = .fin 0 := by
    intro l
    induction l with
    | nil => rfl
    | cons a l ih => simpa [XF.add] using ih
  unfold XF.sum
  rw [this]
  simp [XF.sub, XF.add, XF.neg]

/-- C62: what `EBIC_t` is: the sum of the per-time `EBIC` scores minus an extra
`4 epsilon log(T) / n` per ordered connected pair, because `T * p` is used where `EBIC` uses `p`. -/
theorem C62_ebicT_value [Nonempty n] {T : ℕ} (hT : 0 < T) (S K : Batch T n) (hK : ∀ t, (K t).PosDef)
    (N eps : ℝ) (hN : 0 < N) :
    ∃ e : Fin T → ℝ, (∀ t, ebic (S t) (K t) N eps = .fin (e t)) ∧
      ebicT S K N eps = .fin (∑ t, e t - 4 * eps * Real.log T / N * ∑ t, (offDiagNonzero (K t) : ℝ)) := by
  refine ⟨_, fun t => C39_ebic_value (S t) (K t) (hK t) N eps hN, ?_⟩
  have hp : (0 : ℝ) < Fintype.card n := by exact_mod_cast Fintype.card_pos
  have hT' : (0 : ℝ) < T := by exact_mod_cast hT
  unfold ebicT
  have hof : ofNonzeroT K = ∑ t, (offDiagNonzero (K t) : ℝ) := by
    rw [ofNonzeroT_eq]
    exact Finset.sum_congr rfl fun t _ => ofNonzero_eq _ fun i => (hK t).diag_pos.ne'
  rw [hof, ebicPenalty_fin _ _ _ _ hN (by push_cast; positivity)]
  unfold logLikelihoodT
  rw [xf_sum_fin _ _ fun t => logLikelihood_posDef (S t) (K t) (hK t)]
  simp only [XF.sub, XF.add, XF.neg]
  congr 1
  push_cast
  rw [Real.log_mul hp.ne' hT'.ne']
  unfold penalised
  simp only [Finset.sum_sub_distrib, ← Finset.mul_sum]
  ring

/-- C62 is false: for `T ≥ 2`, `epsilon > 0` and at least one edge the two differ. -/
theorem C62_ebicT_false [Nonempty n] {T : ℕ} (hT : 2 ≤ T) (S K : Batch T n) (hK : ∀ t, (K t).PosDef)
    (hedge : ∃ t i j, i ≠ j ∧ K t i j ≠ 0) (N eps : ℝ) (hN : 0 < N) (he : 0 < eps) :
    ebicT S K N eps ≠ XF.sum fun t => ebic (S t) (K t) N eps := by
  obtain ⟨e, h1, h2⟩ := C62_ebicT_value (by omega) S K hK N eps hN
  rw [h2, xf_sum_fin _ _ h1]
  intro h
  have h := XF.fin.inj h
  have hl : 0 < Real.log (T : ℝ) := Real.log_pos (by exact_mod_cast hT)
  have hpos : 0 < ∑ t, (offDiagNonzero (K t) : ℝ) := by
    obtain ⟨t, i, j, h1, h2⟩ := hedge
    refine Finset.sum_pos' (fun t _ => Nat.cast_nonneg _) ⟨t, Finset.mem_univ _, ?_⟩
    exact_mod_cast Finset.card_pos.mpr ⟨(i, j), by simp [h1, h2]⟩
  have : 0 < 4 * eps * Real.log T / N * ∑ t, (offDiagNonzero (K t) : ℝ) := by positivity
  linarith

/-- C62 (partial): for a single time point the two agree. Missing: more time points (false). -/
theorem C62_ebicT_one_partial [Nonempty n] (S K : Batch 1 n) (hK : (K 0).PosDef) (N eps : ℝ)
    (hN : 0 < N) : ebicT S K N eps = ebic (S 0) (K 0) N eps := by
  have hK' : ∀ t, (K t).PosDef := fun t => by rw [Subsingleton.elim t 0]; exact hK
  obtain ⟨e, h1, h2⟩ := C62_ebicT_value (by omega) S K hK' N eps hN
  rw [h2, h1 0]
  simp

end Verif.Props
