import Verif.Model.Similarity
import Verif.Model.Validation
import Verif.Props.Soft
import Mathlib.Tactic.Linarith
import Mathlib.Tactic.Common
import Mathlib.Tactic.FieldSimp
import Mathlib.Tactic.Positivity

/-! Properties of the similarity tables (C127) and of the external loops of the similarity estimators (C128). -/

namespace Verif.Props

open Matrix Verif.Model Verif.Spec

set_option autoImplicit false
set_option linter.unusedSectionVars false

variable {p T : ℕ}

/-! ### Specification -/

/-- What a user expects of a table of similarities built from distances `d`: finite values between 0 and 1, symmetric,
1 on the diagonal, 0 for the most distant pair, and closer pairs are more similar. -/
def SimilarityOf (d : Fin T → Fin T → ℝ) (s : Fin T → Fin T → XF) : Prop :=
  ∃ v : Fin T → Fin T → ℝ, (∀ r c, s r c = .fin (v r c)) ∧ (∀ r c, 0 ≤ v r c ∧ v r c ≤ 1) ∧
    (∀ r c, v r c = v c r) ∧ (∀ r, v r r = 1) ∧
    (∀ r c, (∀ r' c', d r' c' ≤ d r c) → v r c = 0) ∧
    (∀ r c r' c', v r c ≤ v r' c' ↔ d r' c' ≤ d r c)

/-- A penalty that vanishes at 0, is not negative and does not see the sign: the choices of `psi` other than
`node`, see `C127_penalties`. -/
structure Even (psi : Matrix (Fin p) (Fin p) ℝ → ℝ) : Prop where
  zero : psi 0 = 0
  nonneg : ∀ A, 0 ≤ psi A
  neg : ∀ A, psi (-A) = psi A

/-- The contract of a complete-linkage clustering that stops after one merge (`n_clusters = n_times - 1`): two points
with the same label are a closest pair of the table it was given. -/
def MergesClosest (link : (Fin T → Fin T → ℝ) → Fin T → ℕ) : Prop :=
  ∀ b : Fin T → Fin T → ℝ, (∀ r c, b r c = b c r) → ∀ r c, r ≠ c → link b r = link b c →
    ∀ r' c', r' ≠ c' → b r c ≤ b r' c'

/-! ### Helper lemmas -/

theorem tableMax_ge [NeZero T] (a : Fin T → Fin T → ℝ) (r c : Fin T) : a r c ≤ tableMax a :=
  Finset.le_sup' (f := fun rc : Fin T × Fin T => a rc.1 rc.2) (Finset.mem_univ (r, c))

theorem tableMax_attained [NeZero T] (a : Fin T → Fin T → ℝ) : ∃ r c, a r c = tableMax a := by
  obtain ⟨rc, -, h⟩ := Finset.exists_mem_eq_sup' (s := Finset.univ) Finset.univ_nonempty
    (fun rc : Fin T × Fin T => a rc.1 rc.2)
  exact ⟨rc.1, rc.2, h.symm⟩

theorem tableMin_le [NeZero T] (a : Fin T → Fin T → ℝ) (r c : Fin T) : tableMin a ≤ a r c :=
  Finset.inf'_le (f := fun rc : Fin T × Fin T => a rc.1 rc.2) (Finset.mem_univ (r, c))

theorem tableMin_attained [NeZero T] (a : Fin T → Fin T → ℝ) : ∃ r c, a r c = tableMin a := by
  obtain ⟨rc, -, h⟩ := Finset.exists_mem_eq_inf' (s := Finset.univ) Finset.univ_nonempty
    (fun rc : Fin T × Fin T => a rc.1 rc.2)
  exact ⟨rc.1, rc.2, h.symm⟩

theorem distanceTable_aux (psi : Matrix (Fin p) (Fin p) ℝ → ℝ) (K : Fin T → Matrix (Fin p) (Fin p) ℝ) (k : ℕ)
    (r c : Fin T) :
    (List.range' 1 k).foldl
        (fun kernel m => fillAbove m (jumps psi K m) (fillBelow m (jumps psi K m) kernel)) (fun _ _ => 0) r c =
      if c < r ∧ r.val ≤ c.val + k then psi (K r - K c)
      else if r < c ∧ c.val ≤ r.val + k then psi (K c - K r) else 0 := by
  induction k with
  | zero =>
      simp only [List.range'_zero, List.foldl_nil]
      rw [if_neg, if_neg]
      · rintro ⟨h, h'⟩; have := Fin.lt_def.1 h; omega
      · rintro ⟨h, h'⟩; have := Fin.lt_def.1 h; omega
  | succ k ih =>
      rw [List.range'_1_concat, List.foldl_append, List.foldl_cons, List.foldl_nil]
      unfold fillAbove fillBelow at ih ⊢
      by_cases h1 : c.val = 1 + k + r.val
      · have hlt : r < c := Fin.lt_def.2 (by omega)
        rw [if_pos h1, if_neg (by rintro ⟨h, -⟩; exact absurd hlt (not_lt.2 h.le)), if_pos ⟨hlt, by omega⟩]
        unfold jumps
        have hb : 1 + k + r.val < T := by have := c.isLt; omega
        rw [dif_pos hb]
        have : (⟨1 + k + r.val, hb⟩ : Fin T) = c := Fin.ext h1.symm
        rw [this]
      · rw [if_neg h1]
        by_cases h2 : r.val = 1 + k + c.val
        · have hlt : c < r := Fin.lt_def.2 (by omega)
          rw [if_pos h2, if_pos ⟨hlt, by omega⟩]
          unfold jumps
          have hb : 1 + k + c.val < T := by have := r.isLt; omega
          rw [dif_pos hb]
          have : (⟨1 + k + c.val, hb⟩ : Fin T) = r := Fin.ext h2.symm
          rw [this]
        · rw [if_neg h2, ih]
          congr 1
          · exact propext ⟨fun ⟨a, b⟩ => ⟨a, by omega⟩, fun ⟨a, b⟩ => ⟨a, by omega⟩⟩
          · congr 1
            exact propext ⟨fun ⟨a, b⟩ => ⟨a, by omega⟩, fun ⟨a, b⟩ => ⟨a, by omega⟩⟩

theorem distanceTable_eq {psi : Matrix (Fin p) (Fin p) ℝ → ℝ} (hp : Even psi)
    (K : Fin T → Matrix (Fin p) (Fin p) ℝ) (r c : Fin T) : distanceTable psi K r c = psi (K r - K c) := by
  unfold distanceTable
  rw [distanceTable_aux]
  have hr := r.isLt
  have hc := c.isLt
  rcases lt_trichotomy r c with h | h | h
  · have h' := Fin.lt_def.1 h
    rw [if_neg (by rintro ⟨a, -⟩; exact absurd h (not_lt.2 a.le)), if_pos ⟨h, by omega⟩, ← hp.neg, neg_sub]
  · subst h
    simp [hp.zero]
  · have h' := Fin.lt_def.1 h
    rw [if_pos ⟨h, by omega⟩]

/-- Both tables are `1 - d / max d` with IEEE division. -/
theorem similarityOf_scaled [NeZero T] (d : Fin T → Fin T → ℝ) (h0 : ∀ r, d r r = 0) (hn : ∀ r c, 0 ≤ d r c)
    (hs : ∀ r c, d r c = d c r) (hpos : ∃ r c, d r c ≠ 0) :
    SimilarityOf d fun r c => XF.sub (.fin 1) (XF.div (.fin (d r c)) (.fin (tableMax d))) := by
  have hM : 0 < tableMax d := by
    obtain ⟨r, c, h⟩ := hpos
    exact lt_of_lt_of_le (lt_of_le_of_ne (hn r c) (Ne.symm h)) (tableMax_ge d r c)
  refine ⟨fun r c => 1 - d r c / tableMax d, fun r c => ?_, fun r c => ⟨?_, ?_⟩, fun r c => ?_, fun r => ?_,
    fun r c h => ?_, fun r c r' c' => ?_⟩
  · simp [XF.div, XF.sub, XF.neg, XF.add, hM.ne', sub_eq_add_neg]
  · have := (div_le_one hM).2 (tableMax_ge d r c)
    linarith
  · have := div_nonneg (hn r c) hM.le
    linarith
  · simp only [hs r c]
  · simp [h0 r]
  · obtain ⟨r', c', h'⟩ := tableMax_attained d
    have : d r c = tableMax d := le_antisymm (tableMax_ge d r c) (h' ▸ h r' c')
    simp [this, hM.ne']
  · rw [sub_le_sub_iff_left, div_le_div_iff_of_pos_right hM]

theorem scaled_nan [NeZero T] (d : Fin T → Fin T → ℝ) (h : ∀ r c, d r c = 0) (r c : Fin T) :
    XF.sub (.fin 1) (XF.div (.fin (d r c)) (.fin (tableMax d))) = .nan := by
  obtain ⟨r', c', h'⟩ := tableMax_attained d
  rw [← h', h r' c', h r c]
  simp [XF.div, XF.sub, XF.neg, XF.add]

theorem precisionSimilarity_eq [NeZero T] {psi : Matrix (Fin p) (Fin p) ℝ → ℝ} (hp : Even psi)
    (K : Fin T → Matrix (Fin p) (Fin p) ℝ) :
    precisionSimilarity psi K = fun r c =>
      XF.sub (.fin 1) (XF.div (.fin (psi (K r - K c))) (.fin (tableMax fun r c => psi (K r - K c)))) := by
  have hd : distanceTable psi K = fun r c => psi (K r - K c) := by
    funext r c; exact distanceTable_eq hp K r c
  have hmin : tableMin (fun r c => psi (K r - K c)) = 0 := by
    apply le_antisymm
    · have := tableMin_le (fun r c => psi (K r - K c)) 0 0
      simpa [hp.zero] using this
    · obtain ⟨r, c, h⟩ := tableMin_attained (fun r c => psi (K r - K c))
      rw [← h]; exact hp.nonneg _
  unfold precisionSimilarity
  simp only [hd, hmin, sub_zero]

theorem ising_table [NeZero T] (K : Fin T → Matrix (Fin p) (Fin p) ℝ) :
    (fun r c : Fin T => if r < c then l1OdNorm (K r - K c) else if c < r then l1OdNorm (K c - K r) else 0) =
      fun r c => absSumOff (K r - K c) := by
  funext r c
  simp only [l1OdNorm_eq]
  have hsym : absSumOff (K c - K r) = absSumOff (K r - K c) := by
    unfold absSumOff
    refine Finset.sum_congr rfl fun i _ => Finset.sum_congr rfl fun j _ => ?_
    simp only [Matrix.sub_apply]
    rw [abs_sub_comm]
  rcases lt_trichotomy r c with h | h | h
  · rw [if_pos h]
  · subst h
    simp [absSumOff]
  · rw [if_neg (not_lt.2 h.le), if_pos h, hsym]

theorem precisionSimilarityIsing_eq [NeZero T] (psi : Matrix (Fin p) (Fin p) ℝ → ℝ)
    (K : Fin T → Matrix (Fin p) (Fin p) ℝ) :
    precisionSimilarityIsing psi K = fun r c =>
      XF.sub (.fin 1) (XF.div (.fin (absSumOff (K r - K c))) (.fin (tableMax fun r c => absSumOff (K r - K c)))) := by
  have h := ising_table K
  have h' : ∀ d : Fin T → Fin T → ℝ, d = (fun r c => absSumOff (K r - K c)) →
      (fun r c => XF.sub (.fin 1) (XF.div (.fin (d r c)) (.fin (tableMax d)))) = fun r c =>
      XF.sub (.fin 1) (XF.div (.fin (absSumOff (K r - K c))) (.fin (tableMax fun r c => absSumOff (K r - K c)))) := by
    rintro d rfl; rfl
  exact h' _ h

/-! ### C127 -/

/-- C127, networks of the Gaussian model: as soon as two networks differ (for `psi`), the table is a similarity for the
distance `psi(K_r - K_c)`. -/
theorem C127_gaussian_partial [NeZero T] {psi : Matrix (Fin p) (Fin p) ℝ → ℝ} (hp : Even psi)
    (K : Fin T → Matrix (Fin p) (Fin p) ℝ) (hne : ∃ r c, psi (K r - K c) ≠ 0) :
    SimilarityOf (fun r c => psi (K r - K c)) (precisionSimilarity psi K) := by
  rw [precisionSimilarity_eq hp]
  refine similarityOf_scaled (fun r c => psi (K r - K c)) (fun r => ?_) (fun r c => hp.nonneg _) (fun r c => ?_) hne
  · simp [hp.zero]
  · rw [← hp.neg, neg_sub]

/-- C127, Ising networks: the same with the distance summed over the entries off the diagonal, whatever `psi` is. -/
theorem C127_ising_partial [NeZero T] (psi : Matrix (Fin p) (Fin p) ℝ → ℝ) (K : Fin T → Matrix (Fin p) (Fin p) ℝ)
    (hne : ∃ r c, ∃ i j : Fin p, i ≠ j ∧ K r i j ≠ K c i j) :
    SimilarityOf (fun r c => ∑ i, ∑ j, if i = j then 0 else |K r i j - K c i j|)
      (precisionSimilarityIsing psi K) := by
  rw [precisionSimilarityIsing_eq]
  refine similarityOf_scaled (fun r c => absSumOff (K r - K c)) (fun r => by simp [absSumOff])
    (fun r c => ?_) (fun r c => ?_) ?_
  · exact Finset.sum_nonneg fun i _ => Finset.sum_nonneg fun j _ => by split <;> simp
  · unfold absSumOff
    refine Finset.sum_congr rfl fun i _ => Finset.sum_congr rfl fun j _ => ?_
    simp only [Matrix.sub_apply]
    rw [abs_sub_comm]
  · obtain ⟨r, c, i, j, hij, h⟩ := hne
    refine ⟨r, c, ne_of_gt ?_⟩
    unfold absSumOff
    refine lt_of_lt_of_le ?_ (Finset.single_le_sum (f := fun i => ∑ j, if i = j then 0 else |(K r - K c) i j|)
      (fun i _ => Finset.sum_nonneg fun j _ => by split <;> simp) (Finset.mem_univ i))
    refine lt_of_lt_of_le ?_ (Finset.single_le_sum (f := fun j => if i = j then 0 else |(K r - K c) i j|)
      (fun j _ => by split <;> simp) (Finset.mem_univ j))
    simp only [if_neg hij, Matrix.sub_apply]
    exact abs_pos.2 (sub_ne_zero.2 h)

/-- C127, the disagreement: when no two networks differ (equal networks, or a single time), every entry is nan, also on
the diagonal. -/
theorem C127_equal_false [NeZero T] {psi : Matrix (Fin p) (Fin p) ℝ → ℝ} (hp : Even psi)
    (K : Fin T → Matrix (Fin p) (Fin p) ℝ) (h : ∀ r c, K r = K c) :
    (∀ r c, precisionSimilarity psi K r c = .nan) ∧ ∀ r c, precisionSimilarityIsing psi K r c = .nan := by
  constructor
  · intro r c
    rw [precisionSimilarity_eq hp]
    exact scaled_nan (fun r c => psi (K r - K c)) (fun r c => by rw [h r c, sub_self, hp.zero]) r c
  · intro r c
    rw [precisionSimilarityIsing_eq]
    exact scaled_nan (fun r c => absSumOff (K r - K c)) (fun r c => by simp [h r c, absSumOff]) r c

/-- C127, the disagreement for the Ising table: networks that differ only on the diagonal are fully similar (value 1) and
the argument `psi` changes nothing. -/
theorem C127_ising_psi_false [NeZero T] (psi psi' : Matrix (Fin p) (Fin p) ℝ → ℝ)
    (K : Fin T → Matrix (Fin p) (Fin p) ℝ) : precisionSimilarityIsing psi K = precisionSimilarityIsing psi' K ∧
    ∀ r c r' c', (∀ i j : Fin p, i ≠ j → K r i j = K c i j) → (∃ i j : Fin p, i ≠ j ∧ K r' i j ≠ K c' i j) →
      precisionSimilarityIsing psi K r c = .fin 1 := by
  refine ⟨rfl, fun r c r' c' h h' => ?_⟩
  obtain ⟨v, hv, -, -, hd, -, ho⟩ := C127_ising_partial psi K ⟨r', c', h'⟩
  rw [hv]
  have hz : (∑ i, ∑ j, if i = j then 0 else |K r i j - K c i j|) = 0 :=
    Finset.sum_eq_zero fun i _ => Finset.sum_eq_zero fun j _ => by
      split
      · rfl
      · rename_i hij; rw [h i j hij, sub_self, abs_zero]
  have h1 : v r r ≤ v r c := (ho r r r c).2 (by simp only [hz]; simp)
  have h2 : v r c ≤ v r r := (ho r c r r).2 (by simp only [hz]; simp)
  rw [le_antisymm h2 h1, hd r]

/-- The laplacian penalty is one of the penalties covered. -/
theorem even_laplacian : Even fun A : Matrix (Fin p) (Fin p) ℝ => ∑ i, ∑ j, A i j ^ 2 :=
  ⟨by simp, fun A => Finset.sum_nonneg fun i _ => Finset.sum_nonneg fun j _ => sq_nonneg _, fun A => by simp⟩

/-- C127: the penalties `laplacian`, `l1`, `l2` and `linf` are covered (`node` is found numerically from a random start and
is not). -/
theorem C127_penalties (ext : PenaltyExternals (Fin p)) (function : String)
    (h : function ∈ ["laplacian", "l1", "l2", "linf"]) :
    ∃ np psi, checkNormProx ext function = some np ∧ (∀ A, np.norm A = .fin (psi A)) ∧ Even psi := by
  simp only [List.mem_cons, List.not_mem_nil, or_false] at h
  rcases h with rfl | rfl | rfl | rfl
  · exact ⟨_, squaredNorm, by simp only [checkNormProx, String.reduceEq, reduceIte]; rfl, fun A => rfl, even_laplacian⟩
  · refine ⟨_, l1Norm, by simp only [checkNormProx, String.reduceEq, reduceIte]; rfl, fun A => rfl, ?_, fun A => ?_, fun A => ?_⟩
    · simp [l1Norm]
    · exact Finset.sum_nonneg fun i _ => Finset.sum_nonneg fun j _ => abs_nonneg _
    · simp [l1Norm]
  · refine ⟨_, npNormMat, by simp only [checkNormProx, String.reduceEq, reduceIte]; rfl, fun A => rfl, ?_, fun A => Real.sqrt_nonneg _, fun A => ?_⟩
    · simp [npNormMat]
    · simp [npNormMat]
  · refine ⟨_, npNormInf, by simp only [checkNormProx, String.reduceEq, reduceIte]; rfl, fun A => rfl, ?_, fun A => ?_, fun A => ?_⟩
    · simp [npNormInf]
    · exact Real.iSup_nonneg fun i => Finset.sum_nonneg fun j _ => abs_nonneg _
    · simp [npNormInf]

/-- Three networks, two of them equal, on two variables. -/
def threeNets : Fin 3 → Matrix (Fin 2) (Fin 2) ℝ := ![1, 1, !![1, 2; 2, 1]]

example : ∃ r c, (fun A : Matrix (Fin 2) (Fin 2) ℝ => ∑ i, ∑ j, A i j ^ 2) (threeNets r - threeNets c) ≠ 0 :=
  ⟨0, 2, by simp [threeNets, Fin.sum_univ_two]⟩

example : ∃ r c, ∃ i j : Fin 2, i ≠ j ∧ threeNets r i j ≠ threeNets c i j :=
  ⟨0, 2, 0, 1, by decide, by simp [threeNets]⟩

/-! ### C128 -/

theorem agglomerate_ok {link : (Fin T → Fin T → ℝ) → Fin T → ℕ} {a : Fin T → Fin T → XF} {labels : Fin T → ℕ}
    (h : agglomerate link a = .ok labels) :
    2 ≤ T ∧ ∃ b : Fin T → Fin T → ℝ, (∀ r c, a r c = .fin (b r c)) ∧ labels = link b := by
  unfold agglomerate at h
  split at h
  · rename_i hc
    refine ⟨hc.1, hc.2.choose, hc.2.choose_spec, ?_⟩
    injection h with h
    exact h.symm
  · simp at h

theorem agglomerate_nan {link : (Fin T → Fin T → ℝ) → Fin T → ℕ} {a : Fin T → Fin T → XF} {r c : Fin T}
    (h : a r c = .nan) : agglomerate link a = .error .value := by
  unfold agglomerate
  rw [dif_neg]
  rintro ⟨-, b, hb⟩
  have := hb r c
  rw [h] at this
  exact XF.noConfusion this

theorem labelChange_small [NeZero T] {new old : Fin T → ℕ} {eps : ℝ} (he : eps ≤ 1 / T)
    (h : labelChange new old < eps) : new = old := by
  by_contra hne
  obtain ⟨t, ht⟩ := Function.ne_iff.1 hne
  have hT : (0 : ℝ) < T := by exact_mod_cast Nat.pos_of_ne_zero (NeZero.ne T)
  have h1 : (1 : ℝ) ≤ ∑ t, ((new t : ℝ) - (old t : ℝ)) ^ 2 := by
    refine le_trans ?_ (Finset.single_le_sum (f := fun t => ((new t : ℝ) - (old t : ℝ)) ^ 2)
      (fun t _ => sq_nonneg _) (Finset.mem_univ t))
    have hz : (1 : ℤ) ≤ ((new t : ℤ) - (old t : ℤ)) ^ 2 := by
      have hnz : ((new t : ℤ) - (old t : ℤ)) ≠ 0 := by
        intro h0; exact ht (by exact_mod_cast (sub_eq_zero.1 h0))
      have := sq_nonneg ((new t : ℤ) - (old t : ℤ))
      have h2 : ((new t : ℤ) - (old t : ℤ)) ^ 2 ≠ 0 := pow_ne_zero 2 hnz
      omega
    exact_mod_cast hz
  have h2 : (1 : ℝ) ≤ Real.sqrt (∑ t, ((new t : ℝ) - (old t : ℝ)) ^ 2) := by
    rw [Real.one_le_sqrt]; exact h1
  have : 1 / (T : ℝ) ≤ labelChange new old := by
    unfold labelChange
    exact div_le_div_of_nonneg_right h2 hT.le
  linarith

theorem clusterKernel_diag (beta : ℝ) (labels : Fin T → ℕ) (t : Fin T) : clusterKernel beta labels t t = 2 := by
  simp [clusterKernel, rbfKernel]; norm_num

theorem simTGLLoop_spec [NeZero T] (psi : Matrix (Fin p) (Fin p) ℝ → ℝ)
    (link : (Fin T → Fin T → ℝ) → Fin T → ℕ)
    (solve : (Fin T → Fin T → ℝ) → (Fin T → Matrix (Fin p) (Fin p) ℝ) → Fin T → Matrix (Fin p) (Fin p) ℝ)
    (beta eps : ℝ) (fuel i : ℕ) (K : Fin T → Matrix (Fin p) (Fin p) ℝ) (kernel : Fin T → Fin T → XF)
    (old : Option (Fin T → ℕ))
    (hi : i > 0 → ∃ o K', old = some o ∧ K = solve (clusterKernel beta o) K' ∧ kernel = toXF (clusterKernel beta o))
    (out : SimOut p T) (h : simTGLLoop psi link solve beta eps fuel i K kernel old = .ok out) :
    (out.converged = true → out.similarity = precisionSimilarity psi out.precision ∧
      ∃ labels o K', agglomerate link out.similarity = .ok labels ∧ labelChange labels o < eps ∧
        out.precision = solve (clusterKernel beta o) K') ∧
    (out.converged = false → i + fuel > 0 → ∃ o K', out.precision = solve (clusterKernel beta o) K' ∧
      out.similarity = toXF (clusterKernel beta o)) := by
  induction fuel generalizing i K kernel old with
  | zero =>
      simp only [simTGLLoop] at h
      injection h with h
      subst h
      refine ⟨fun hc => by simp at hc, fun _ hpos => ?_⟩
      obtain ⟨o, K', -, hK, hk⟩ := hi (by omega)
      exact ⟨o, K', hK, hk⟩
  | succ k ih =>
      simp only [simTGLLoop] at h
      cases hag : agglomerate link (precisionSimilarity psi K) with
      | error e => rw [hag] at h; simp at h
      | ok labels =>
          rw [hag] at h
          simp only at h
          by_cases hb : i > 0 ∧ ∃ o, old = some o ∧ labelChange labels o < eps
          · rw [if_pos hb] at h
            injection h with h
            subst h
            refine ⟨fun _ => ⟨rfl, ?_⟩, fun hc => by simp at hc⟩
            obtain ⟨o, K', ho, hK, -⟩ := hi hb.1
            obtain ⟨o', ho', hlt⟩ := hb.2
            rw [ho] at ho'
            injection ho' with ho'
            subst ho'
            exact ⟨labels, o, K', hag, hlt, hK⟩
          · rw [if_neg hb] at h
            obtain ⟨h1, h2⟩ := ih (i + 1) _ _ _ (fun _ => ⟨labels, K, rfl, rfl, rfl⟩) h
            exact ⟨h1, fun hc _ => h2 hc (by omega)⟩

theorem simIsingLoop_spec [NeZero T] (psi : Matrix (Fin p) (Fin p) ℝ → ℝ)
    (link : (Fin T → Fin T → ℝ) → Fin T → ℕ)
    (solve : (Fin T → Fin T → ℝ) → Fin T → Matrix (Fin p) (Fin p) ℝ)
    (beta eps : ℝ) (fuel i : ℕ) (K : Fin T → Matrix (Fin p) (Fin p) ℝ) (kernel : Fin T → Fin T → ℝ)
    (old : Option (Fin T → ℕ))
    (hi : i > 0 → ∃ o, old = some o ∧ agglomerate link (precisionSimilarityIsing psi K) = .ok o ∧
      kernel = clusterKernel beta o)
    (out : SimOut p T) (h : simIsingLoop psi link solve beta eps fuel i K kernel old = .ok out) :
    (out.converged = true → out.similarity = precisionSimilarityIsing psi out.precision ∧
      ∃ labels o, agglomerate link out.similarity = .ok labels ∧ labelChange labels o < eps ∧
        out.precision = solve (clusterKernel beta o)) ∧
    (out.converged = false → i + fuel > 0 → ∃ o, agglomerate link (precisionSimilarityIsing psi out.precision) = .ok o ∧
      out.similarity = toXF (clusterKernel beta o)) := by
  induction fuel generalizing i K kernel old with
  | zero =>
      simp only [simIsingLoop] at h
      injection h with h
      subst h
      refine ⟨fun hc => by simp at hc, fun _ hpos => ?_⟩
      obtain ⟨o, -, hK, hk⟩ := hi (by omega)
      exact ⟨o, hK, by rw [hk]⟩
  | succ k ih =>
      simp only [simIsingLoop] at h
      cases hag : agglomerate link (precisionSimilarityIsing psi (solve kernel)) with
      | error e => rw [hag] at h; simp at h
      | ok labels =>
          rw [hag] at h
          simp only at h
          by_cases hb : i > 0 ∧ ∃ o, old = some o ∧ labelChange labels o < eps
          · rw [if_pos hb] at h
            injection h with h
            subst h
            refine ⟨fun _ => ⟨rfl, ?_⟩, fun hc => by simp at hc⟩
            obtain ⟨o, ho, -, hk⟩ := hi hb.1
            obtain ⟨o', ho', hlt⟩ := hb.2
            rw [ho] at ho'
            injection ho' with ho'
            subst ho'
            exact ⟨labels, o, hag, hlt, by simp only; rw [hk]⟩
          · rw [if_neg hb] at h
            obtain ⟨h1, h2⟩ := ih (i + 1) _ _ _ (fun _ => ⟨labels, rfl, hag, rfl⟩) h
            exact ⟨h1, fun hc _ => h2 hc (by omega)⟩

/-- C128, the Gaussian estimator when the loop stopped by itself: the table it exposes is a similarity table of the
networks it returns, and these networks are the fit for the clusters found in that very table (a fixed point of the
alternation), as soon as `eps` does not exceed `1 / n_times`. -/
theorem C128_converged_partial [NeZero T] {psi : Matrix (Fin p) (Fin p) ℝ → ℝ} (hp : Even psi)
    (link : (Fin T → Fin T → ℝ) → Fin T → ℕ)
    (solve : (Fin T → Fin T → ℝ) → (Fin T → Matrix (Fin p) (Fin p) ℝ) → Fin T → Matrix (Fin p) (Fin p) ℝ)
    (beta eps : ℝ) (he : eps ≤ 1 / T) (rounds : ℕ) (init : Fin T → Matrix (Fin p) (Fin p) ℝ) (out : SimOut p T)
    (h : simTGLLoop psi link solve beta eps rounds 0 init (toXF (eyeTable T)) none = .ok out)
    (hc : out.converged = true) :
    SimilarityOf (fun r c => psi (out.precision r - out.precision c)) out.similarity ∧
    ∃ labels K', agglomerate link out.similarity = .ok labels ∧
      out.precision = solve (fun r c => Real.exp (-(1 / 2) * ((labels r : ℝ) / 0.0001 - (labels c : ℝ) / 0.0001) ^ 2) +
        Real.exp (-(1 / 2) * ((r : ℕ) / beta - (c : ℕ) / beta) ^ 2)) K' := by
  obtain ⟨h1, labels, o, K', hag, hlt, hK⟩ :=
    (simTGLLoop_spec psi link solve beta eps rounds 0 init _ none (fun h => absurd h (by omega)) out h).1 hc
  refine ⟨?_, labels, K', hag, ?_⟩
  · rw [h1]
    refine C127_gaussian_partial hp out.precision ?_
    by_contra hno
    push Not at hno
    have hnan : precisionSimilarity psi out.precision 0 0 = .nan := by
      rw [precisionSimilarity_eq hp]
      exact scaled_nan (fun r c => psi (out.precision r - out.precision c)) hno 0 0
    rw [h1, agglomerate_nan hnan] at hag
    simp at hag
  · have := labelChange_small he hlt
    subst this
    exact hK

/-- C128, the same for the Ising estimator. -/
theorem C128_ising_converged_partial [NeZero T] (psi : Matrix (Fin p) (Fin p) ℝ → ℝ)
    (link : (Fin T → Fin T → ℝ) → Fin T → ℕ)
    (solve : (Fin T → Fin T → ℝ) → Fin T → Matrix (Fin p) (Fin p) ℝ)
    (beta eps : ℝ) (he : eps ≤ 1 / T) (rounds : ℕ) (start : Fin T → Matrix (Fin p) (Fin p) ℝ) (out : SimOut p T)
    (h : simIsingLoop psi link solve beta eps rounds 0 start (eyeTable T) none = .ok out)
    (hc : out.converged = true) :
    SimilarityOf (fun r c => ∑ i, ∑ j, if i = j then 0 else |out.precision r i j - out.precision c i j|)
      out.similarity ∧
    ∃ labels, agglomerate link out.similarity = .ok labels ∧
      out.precision = solve (fun r c => Real.exp (-(1 / 2) * ((labels r : ℝ) / 0.0001 - (labels c : ℝ) / 0.0001) ^ 2) +
        Real.exp (-(1 / 2) * ((r : ℕ) / beta - (c : ℕ) / beta) ^ 2)) := by
  obtain ⟨h1, labels, o, hag, hlt, hK⟩ :=
    (simIsingLoop_spec psi link solve beta eps rounds 0 start _ none (fun h => absurd h (by omega)) out h).1 hc
  refine ⟨?_, labels, hag, ?_⟩
  · rw [h1]
    refine C127_ising_partial psi out.precision ?_
    by_contra hno
    push Not at hno
    have hnan : precisionSimilarityIsing psi out.precision 0 0 = .nan := by
      rw [precisionSimilarityIsing_eq]
      refine scaled_nan (fun r c => absSumOff (out.precision r - out.precision c)) (fun r c => ?_) 0 0
      refine Finset.sum_eq_zero fun i _ => Finset.sum_eq_zero fun j _ => ?_
      split
      · rfl
      · rename_i hij; rw [Matrix.sub_apply, hno r c i j hij, sub_self, abs_zero]
    rw [h1, agglomerate_nan hnan] at hag
    simp at hag
  · have := labelChange_small he hlt
    subst this
    exact hK

/-- C128, the disagreement: when the rounds run out (always with `max_iter_ext = 1`), `similarity_matrix_` is the kernel
of the last fit; its diagonal is 2, so it is no similarity table of any distance. -/
theorem C128_unconverged_false [NeZero T] (psi : Matrix (Fin p) (Fin p) ℝ → ℝ)
    (link : (Fin T → Fin T → ℝ) → Fin T → ℕ)
    (solve : (Fin T → Fin T → ℝ) → (Fin T → Matrix (Fin p) (Fin p) ℝ) → Fin T → Matrix (Fin p) (Fin p) ℝ)
    (beta eps : ℝ) (rounds : ℕ) (hr : 0 < rounds) (init : Fin T → Matrix (Fin p) (Fin p) ℝ) (out : SimOut p T)
    (h : simTGLLoop psi link solve beta eps rounds 0 init (toXF (eyeTable T)) none = .ok out) :
    (rounds = 1 → out.converged = false) ∧
    (out.converged = false → (∀ t, out.similarity t t = .fin 2) ∧ (∀ d, ¬ SimilarityOf d out.similarity) ∧
      ∃ a K', out.similarity = toXF a ∧ out.precision = solve a K') := by
  refine ⟨fun h1 => ?_, fun hc => ?_⟩
  · subst h1
    simp only [simTGLLoop] at h
    cases hag : agglomerate link (precisionSimilarity psi init) with
    | error e => rw [hag] at h; simp at h
    | ok labels =>
        rw [hag] at h
        simp only [gt_iff_lt, lt_irrefl, false_and, if_false] at h
        injection h with h
        rw [← h]
  · obtain ⟨o, K', h1, h2⟩ :=
      (simTGLLoop_spec psi link solve beta eps rounds 0 init _ none (fun h => absurd h (by omega)) out h).2 hc (by omega)
    have hd : ∀ t, out.similarity t t = .fin 2 := fun t => by
      rw [h2]; unfold toXF; rw [clusterKernel_diag]
    refine ⟨hd, fun d hs => ?_, _, K', h2, h1⟩
    obtain ⟨v, hv, -, -, hv1, -⟩ := hs
    have := hv 0 0
    rw [hd, hv1] at this
    injection this with this
    norm_num at this

/-- C128, the disagreement: networks that all start equal (`init="zeros"`, or a single time stamp) make the fit raise
ValueError, whatever the data. -/
theorem C128_equal_init_false [NeZero T] {psi : Matrix (Fin p) (Fin p) ℝ → ℝ} (hp : Even psi)
    (link : (Fin T → Fin T → ℝ) → Fin T → ℕ)
    (solve : (Fin T → Fin T → ℝ) → (Fin T → Matrix (Fin p) (Fin p) ℝ) → Fin T → Matrix (Fin p) (Fin p) ℝ)
    (beta eps : ℝ) (rounds : ℕ) (hr : 0 < rounds) (init : Fin T → Matrix (Fin p) (Fin p) ℝ)
    (heq : ∀ r c, init r = init c) :
    similarityTGLFit psi link solve beta eps rounds init none = .error .value := by
  obtain ⟨k, rfl⟩ := Nat.exists_eq_succ_of_ne_zero hr.ne'
  unfold similarityTGLFit
  simp only [simTGLLoop, agglomerate_nan ((C127_equal_false hp init heq).1 0 0)]

/-- C128, the disagreement: after a fit with a given kernel, `transform` raises NotFittedError. -/
theorem C128_given_kernel_false [NeZero T] (psi : Matrix (Fin p) (Fin p) ℝ → ℝ)
    (link : (Fin T → Fin T → ℝ) → Fin T → ℕ)
    (solve : (Fin T → Fin T → ℝ) → (Fin T → Matrix (Fin p) (Fin p) ℝ) → Fin T → Matrix (Fin p) (Fin p) ℝ)
    (beta eps : ℝ) (rounds : ℕ) (init : Fin T → Matrix (Fin p) (Fin p) ℝ) (a : Fin T → Fin T → ℝ) :
    ∃ f, similarityTGLFit psi link solve beta eps rounds init (some ⟨T, a⟩) = .ok f ∧ f.precision = solve a init ∧
      similarityTransform f = none := by
  refine ⟨⟨solve a init, none⟩, ?_, rfl, rfl⟩
  unfold similarityTGLFit
  simp

/-- C128: without a given kernel, a fit that succeeds can be transformed, and the result is what the loop left. -/
theorem C128_transform [NeZero T] (psi : Matrix (Fin p) (Fin p) ℝ → ℝ)
    (link : (Fin T → Fin T → ℝ) → Fin T → ℕ)
    (solve : (Fin T → Fin T → ℝ) → (Fin T → Matrix (Fin p) (Fin p) ℝ) → Fin T → Matrix (Fin p) (Fin p) ℝ)
    (beta eps : ℝ) (rounds : ℕ) (init : Fin T → Matrix (Fin p) (Fin p) ℝ) (f : SimFitted p T)
    (h : similarityTGLFit psi link solve beta eps rounds init none = .ok f) :
    ∃ out, simTGLLoop psi link solve beta eps rounds 0 init (toXF (eyeTable T)) none = .ok out ∧
      similarityTransform f = some out.similarity ∧ f.precision = out.precision := by
  unfold similarityTGLFit at h
  simp only at h
  cases hl : simTGLLoop psi link solve beta eps rounds 0 init (toXF (eyeTable T)) none with
  | error e => rw [hl] at h; simp at h
  | ok out =>
      rw [hl] at h
      simp only at h
      injection h with h
      subst h
      exact ⟨out, rfl, rfl, rfl⟩

/-- C128, the disagreement: the similarity table is handed to the clustering as a table of distances, so the first merge
joins the two networks that are furthest apart; equal networks get different labels. -/
theorem C128_clusters_false [NeZero T] {psi : Matrix (Fin p) (Fin p) ℝ → ℝ} (hp : Even psi)
    (link : (Fin T → Fin T → ℝ) → Fin T → ℕ) (hl : MergesClosest link) (K : Fin T → Matrix (Fin p) (Fin p) ℝ)
    (labels : Fin T → ℕ) (h : agglomerate link (precisionSimilarity psi K) = .ok labels) :
    (∀ r c, r ≠ c → labels r = labels c → ∀ r' c', psi (K r' - K c') ≤ psi (K r - K c)) ∧
    ∀ r c, r ≠ c → K r = K c → labels r ≠ labels c := by
  obtain ⟨-, b, hb, hlab⟩ := agglomerate_ok h
  have hne : ∃ r c, psi (K r - K c) ≠ 0 := by
    by_contra hno
    push Not at hno
    have hnan : precisionSimilarity psi K 0 0 = .nan := by
      rw [precisionSimilarity_eq hp]
      exact scaled_nan (fun r c => psi (K r - K c)) hno 0 0
    exact absurd h (by rw [agglomerate_nan hnan]; simp)
  obtain ⟨v, hv, hv01, hvs, hv1, hv0, hvo⟩ := C127_gaussian_partial hp K hne
  have hbv : b = v := by
    funext r c
    have := (hb r c).symm.trans (hv r c)
    injection this
  subst hbv
  have first : ∀ r c, r ≠ c → labels r = labels c → ∀ r' c', psi (K r' - K c') ≤ psi (K r - K c) := by
    intro r c hrc hsame r' c'
    by_cases hrc' : r' = c'
    · subst hrc'
      rw [sub_self, hp.zero]; exact hp.nonneg _
    · rw [hlab] at hsame
      exact (hvo r c r' c').1 (hl b hvs r c hrc hsame r' c' hrc')
  refine ⟨first, fun r c hrc hK hsame => ?_⟩
  obtain ⟨r', c', h'⟩ := hne
  have := first r c hrc hsame r' c'
  rw [hK, sub_self, hp.zero] at this
  exact h' (le_antisymm this (hp.nonneg _))

/-- The hypotheses of `C128_clusters_false` can be met: on three points, join a closest pair. -/
theorem exists_mergesClosest : ∃ link : (Fin 3 → Fin 3 → ℝ) → Fin 3 → ℕ, MergesClosest link ∧
    ∀ b, ∃ r c, r ≠ c ∧ link b r = link b c := by
  classical
  have hmin : ∀ b : Fin 3 → Fin 3 → ℝ, ∃ rc : Fin 3 × Fin 3, rc.1 ≠ rc.2 ∧
      ∀ r' c', r' ≠ c' → b rc.1 rc.2 ≤ b r' c' := by
    intro b
    obtain ⟨rc, hm, h⟩ := Finset.exists_min_image (Finset.univ.filter fun rc : Fin 3 × Fin 3 => rc.1 ≠ rc.2)
      (fun rc => b rc.1 rc.2) ⟨(0, 1), by simp⟩
    exact ⟨rc, by simpa using hm, fun r' c' h' => h (r', c') (by simpa using h')⟩
  choose f hf1 hf2 using hmin
  refine ⟨fun b t => if t = (f b).2 then ((f b).1 : ℕ) else t, ?_, fun b => ⟨(f b).1, (f b).2, hf1 b, ?_⟩⟩
  · intro b hs r c hrc hsame r' c' h'
    simp only at hsame
    by_cases h1 : r = (f b).2 <;> by_cases h2 : c = (f b).2
    · exact absurd (h1.trans h2.symm) hrc
    · rw [if_pos h1, if_neg h2] at hsame
      have : c = (f b).1 := Fin.ext hsame.symm
      rw [h1, this, hs]; exact hf2 b r' c' h'
    · rw [if_neg h1, if_pos h2] at hsame
      have : r = (f b).1 := Fin.ext hsame
      rw [h2, this]; exact hf2 b r' c' h'
    · rw [if_neg h1, if_neg h2] at hsame
      exact absurd (Fin.ext hsame) hrc
  · simp [hf1 b]

/-- A run of the loop that stops by itself: the solver keeps the three networks. -/
theorem simTGL_runs (link : (Fin 3 → Fin 3 → ℝ) → Fin 3 → ℕ) : ∃ out,
    simTGLLoop (fun A : Matrix (Fin 2) (Fin 2) ℝ => ∑ i, ∑ j, A i j ^ 2) link (fun _ K => K) 1 (1 / 4) 2 0 threeNets
      (toXF (eyeTable 3)) none = .ok out ∧ out.converged = true := by
  obtain ⟨v, hv, -⟩ := C127_gaussian_partial even_laplacian threeNets
    ⟨0, 2, by simp [threeNets, Fin.sum_univ_two]⟩
  have hag : agglomerate link (precisionSimilarity (fun A : Matrix (Fin 2) (Fin 2) ℝ => ∑ i, ∑ j, A i j ^ 2) threeNets) =
      .ok (link v) := by
    unfold agglomerate
    have hex : 2 ≤ 3 ∧ ∃ b : Fin 3 → Fin 3 → ℝ, ∀ r c,
        precisionSimilarity (fun A : Matrix (Fin 2) (Fin 2) ℝ => ∑ i, ∑ j, A i j ^ 2) threeNets r c = .fin (b r c) :=
      ⟨by norm_num, v, hv⟩
    rw [dif_pos hex]
    have : hex.2.choose = v := by
      funext r c
      have := (hex.2.choose_spec r c).symm.trans (hv r c)
      injection this
    rw [this]
  refine ⟨⟨threeNets, precisionSimilarity (fun A : Matrix (Fin 2) (Fin 2) ℝ => ∑ i, ∑ j, A i j ^ 2) threeNets, true⟩,
    ?_, rfl⟩
  simp only [simTGLLoop, hag]
  rw [if_neg (by simp), if_pos]
  refine ⟨by norm_num, link v, rfl, ?_⟩
  simp [labelChange]

end Verif.Props
