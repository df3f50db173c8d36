import Verif.Model.GroupClassifier
import Verif.Props.GroupFit
import Verif.Props.LatentOne
import Verif.Lemmas.Relabel
import Verif.Model.Lasso
import Mathlib.Tactic.FieldSimp
import Mathlib.Tactic.Linarith
import Mathlib.Tactic.NormNum
import Mathlib.Tactic.FinCases

/-! Property theorem C227: the labels predicted by the group lasso classifier. -/

namespace Verif.Props

open Verif.Model Matrix

set_option autoImplicit false
set_option linter.unusedSectionVars false

variable {n d : ℕ} {α β : Type} [LinearOrder α] [LinearOrder β]

theorem mem_labelClasses (y : Fin n → α) (c : α) : c ∈ labelClasses y ↔ ∃ i, y i = c := by
  unfold labelClasses
  simp

theorem nodup_labelClasses (y : Fin n → α) : (labelClasses y).Nodup := Finset.sort_nodup _ _

/-- The decision value of a class: the regression of its indicator (1 for the class, -1 for others) at `x`. -/
noncomputable def classScore (solver : Matrix (Fin n) (Fin d) ℝ → (Fin n → ℝ) → (Fin d → ℝ))
    (X : Matrix (Fin n) (Fin d) ℝ) (y : Fin n → α) (x : Fin d → ℝ) (c : α) : ℝ :=
  let ind : Fin n → ℝ := fun i => if y i = c then 1 else -1
  let mean : ℝ := (∑ i, ind i) / n
  let w := solver (meanFree X) fun i => ind i - mean
  x ⬝ᵥ w + (mean - (fun j => (∑ i, X i j) / n) ⬝ᵥ w)

theorem columnScore_eq (solver : Matrix (Fin n) (Fin d) ℝ → (Fin n → ℝ) → (Fin d → ℝ))
    (X : Matrix (Fin n) (Fin d) ℝ) (Y : Matrix (Fin n) (Fin 1) ℝ) (x : Fin d → ℝ) :
    columnScore solver X Y x =
      let mean : ℝ := (∑ i, Y i 0) / n
      let w := solver (meanFree X) fun i => Y i 0 - mean
      x ⬝ᵥ w + (mean - (fun j => (∑ i, X i j) / n) ⬝ᵥ w) := by
  unfold columnScore groupPredict groupIntercept groupCoef fitCentre fitOffset meanFree
  simp only [if_true, of_apply]
  rfl

theorem score_eq (solver : Matrix (Fin n) (Fin d) ℝ → (Fin n → ℝ) → (Fin d → ℝ))
    (X : Matrix (Fin n) (Fin d) ℝ) (y : Fin n → α) (x : Fin d → ℝ) (c : α) :
    columnScore solver X (labelColumn y c) x = classScore solver X y x c := by
  rw [columnScore_eq]
  rfl

theorem score_neg (solver : Matrix (Fin n) (Fin d) ℝ → (Fin n → ℝ) → (Fin d → ℝ))
    (X : Matrix (Fin n) (Fin d) ℝ) (hodd : ∀ y, solver (meanFree X) (-y) = -solver (meanFree X) y)
    (Y : Matrix (Fin n) (Fin 1) ℝ) (x : Fin d → ℝ) :
    columnScore solver X (-Y) x = -columnScore solver X Y x := by
  rw [columnScore_eq, columnScore_eq]
  have h1 : (∑ i, (-Y) i 0) / (n : ℝ) = -((∑ i, Y i 0) / n) := by
    rw [← neg_div, ← Finset.sum_neg_distrib]
    rfl
  have h2 : (fun i => (-Y) i 0 - (∑ i, (-Y) i 0) / (n : ℝ)) = -fun i => Y i 0 - (∑ i, Y i 0) / n := by
    funext i
    rw [h1]
    simp only [Matrix.neg_apply, Pi.neg_apply]
    ring
  simp only
  rw [h2, hodd, h1, dotProduct_neg, dotProduct_neg]
  ring

theorem labelColumn_other (y : Fin n → α) (c₀ c₁ : α) (h : labelClasses y = [c₀, c₁]) :
    labelColumn y c₀ = -labelColumn y c₁ := by
  have hne : c₀ ≠ c₁ := by
    have := nodup_labelClasses y
    rw [h] at this
    simpa using this
  ext i j
  have hi : y i = c₀ ∨ y i = c₁ := by
    have := (mem_labelClasses y (y i)).2 ⟨i, rfl⟩
    rw [h] at this
    simpa using this
  unfold labelColumn
  rcases hi with hi | hi
  · simp [hi, hne]
  · simp [hi, hne.symm]

theorem negativeColumn_eq (y : Fin n → α) (c : α) (h : labelClasses y = [c]) :
    (negativeColumn : Matrix (Fin n) (Fin 1) ℝ) = -labelColumn y c := by
  ext i j
  have hi : y i = c := by
    have := (mem_labelClasses y (y i)).2 ⟨i, rfl⟩
    rw [h] at this
    simpa using this
  unfold labelColumn negativeColumn
  simp [hi]

/-- C227: a predicted label is a label of the training data. -/
theorem C227_known (solver : Matrix (Fin n) (Fin d) ℝ → (Fin n → ℝ) → (Fin d → ℝ)) (X : Matrix (Fin n) (Fin d) ℝ)
    (y : Fin n → α) (x : Fin d → ℝ) (c : α) (h : classifierPredict solver X y x = .ok c) : ∃ i, y i = c := by
  rw [← mem_labelClasses]
  unfold classifierPredict at h
  split at h
  · simp at h
  · rename_i c' hc
    split at h
    · simp at h
    · rw [hc]; simp at h; simp [h]
  · rename_i c₀ c₁ hc
    rw [hc]
    split at h <;> simp at h <;> simp [h]
  · split at h
    · simp at h
    · split at h
      · simp at h
      · rename_i c' hc'
        simp at h
        subst h
        exact List.argmax_mem hc'

/-- C227: when the solver treats targets of opposite sign alike, the predicted label is that of the largest decision
value, for any number of classes, as long as the largest value is attained once. Three or more classes need two
features (see `C227_single_feature_false`). -/
theorem C227_largest (solver : Matrix (Fin n) (Fin d) ℝ → (Fin n → ℝ) → (Fin d → ℝ)) (X : Matrix (Fin n) (Fin d) ℝ)
    (hodd : ∀ y, solver (meanFree X) (-y) = -solver (meanFree X) y) (y : Fin n → α) (x : Fin d → ℝ) (hd : 2 ≤ d)
    (i : Fin n) (hmax : ∀ j, y j ≠ y i → classScore solver X y x (y j) < classScore solver X y x (y i)) :
    classifierPredict solver X y x = .ok (y i) := by
  have hmem := (mem_labelClasses y (y i)).2 ⟨i, rfl⟩
  have hmax' : ∀ c ∈ labelClasses y, c ≠ y i → classScore solver X y x c < classScore solver X y x (y i) := by
    intro c hc hne
    obtain ⟨j, rfl⟩ := (mem_labelClasses y c).1 hc
    exact hmax j hne
  unfold classifierPredict
  split
  · rename_i h
    rw [h] at hmem
    simp at hmem
  · rename_i c h
    have hc : y i = c := by rw [h] at hmem; simpa using hmem
    have hcol : ∀ k, labelColumn y c k 0 = 1 := by
      intro k
      have : y k = c := by
        have := (mem_labelClasses y (y k)).2 ⟨k, rfl⟩
        rw [h] at this
        simpa using this
      simp [labelColumn, this]
    have hn : (n : ℝ) ≠ 0 := by
      have := i.pos
      positivity
    have hz : solver (meanFree X) 0 = 0 := by
      have h0 := hodd 0
      rw [neg_zero] at h0
      funext j
      have := congrFun h0 j
      simp only [Pi.neg_apply] at this
      simp only [Pi.zero_apply]
      linarith
    have hs : columnScore solver X negativeColumn x = -1 := by
      rw [negativeColumn_eq y c h, score_neg solver X hodd, columnScore_eq]
      have hm : (∑ i, labelColumn y c i 0) / (n : ℝ) = 1 := by
        rw [Finset.sum_congr rfl fun k _ => hcol k, Finset.sum_const, Finset.card_univ, Fintype.card_fin, nsmul_eq_mul]
        field_simp
      have hf : (fun i => labelColumn y c i 0 - (∑ i, labelColumn y c i 0) / (n : ℝ)) = 0 := by
        funext k
        rw [hm, hcol]
        simp
      simp only
      rw [hf, hm, hz]
      simp
    rw [hs, hc]
    norm_num
  · rename_i c₀ c₁ h
    have h01 : classScore solver X y x c₀ = -classScore solver X y x c₁ := by
      rw [← score_eq, ← score_eq, labelColumn_other y c₀ c₁ h, score_neg solver X hodd]
    have hne : c₀ ≠ c₁ := by
      have := nodup_labelClasses y
      rw [h] at this
      simpa using this
    rw [score_eq]
    have hc : y i = c₀ ∨ y i = c₁ := by rw [h] at hmem; simpa using hmem
    rcases hc with hc | hc
    · have := hmax' c₁ (by rw [h]; simp) (by rw [hc]; exact hne.symm)
      rw [hc, h01] at this
      rw [if_neg (by linarith), hc]
    · have := hmax' c₀ (by rw [h]; simp) (by rw [hc]; exact hne)
      rw [hc, h01] at this
      rw [if_pos (by linarith), hc]
  · rename_i h1 h2 h3
    rw [(C226_shapes_partial n (labelClasses y).length d hd).1]
    simp only
    have hfun : (fun c => columnScore solver X (labelColumn y c) x) = classScore solver X y x := by
      funext c
      exact score_eq solver X y x c
    rw [hfun]
    cases ha : (labelClasses y).argmax (classScore solver X y x) with
    | none => exact absurd (List.argmax_eq_none.1 ha) (by rintro h; rw [h] at hmem; simp at hmem)
    | some c =>
      simp only
      by_contra hne
      have hne' : c ≠ y i := fun e => hne (by rw [e])
      have hlt := hmax' c (List.argmax_mem ha) hne'
      exact absurd (List.le_of_mem_argmax hmem ha) (not_le.2 hlt)

/-- C227: giving the classes other names gives the predictions other names and changes nothing else, as long as the
largest decision value is attained once - whatever the order of the new names. -/
theorem C227_names_partial (solver : Matrix (Fin n) (Fin d) ℝ → (Fin n → ℝ) → (Fin d → ℝ))
    (X : Matrix (Fin n) (Fin d) ℝ) (hodd : ∀ y, solver (meanFree X) (-y) = -solver (meanFree X) y) (y : Fin n → α)
    (σ : α → β) (hσ : Function.Injective σ) (x : Fin d → ℝ) (hd : 2 ≤ d) (i : Fin n)
    (hmax : ∀ j, y j ≠ y i → classScore solver X y x (y j) < classScore solver X y x (y i)) :
    classifierPredict solver X (fun j => σ (y j)) x = .ok (σ (y i)) ∧ classifierPredict solver X y x = .ok (y i) := by
  refine ⟨?_, C227_largest solver X hodd y x hd i hmax⟩
  have hs : ∀ c, classScore solver X (fun j => σ (y j)) x (σ c) = classScore solver X y x c := by
    intro c
    unfold classScore
    simp only [hσ.eq_iff]
  refine C227_largest solver X hodd (fun j => σ (y j)) x hd i fun j hj => ?_
  rw [hs, hs]
  exact hmax j fun e => hj (by rw [e])

/-- The number of samples of a class. -/
def labelCount (y : Fin n → α) (c : α) : ℕ := (Finset.univ.filter fun i => y i = c).card

theorem classScore_zero (hn : 0 < n) (X : Matrix (Fin n) (Fin d) ℝ) (y : Fin n → α) (x : Fin d → ℝ) (c : α) :
    classScore (fun _ _ => 0) X y x c = 2 * labelCount y c / n - 1 := by
  have hn' : (n : ℝ) ≠ 0 := by positivity
  unfold classScore labelCount
  simp only [dotProduct_zero, sub_zero, zero_add]
  have : ∀ i, (if y i = c then (1 : ℝ) else -1) = 2 * (if y i = c then 1 else 0) - 1 := fun i => by
    split <;> norm_num
  rw [Finset.sum_congr rfl fun i _ => this i, Finset.sum_sub_distrib, ← Finset.mul_sum, Finset.sum_boole,
    Finset.sum_const, Finset.card_univ, Fintype.card_fin, nsmul_eq_mul]
  field_simp

/-- C227: with a penalty that leaves no coefficient, the prediction is a most frequent class. -/
theorem C227_null (X : Matrix (Fin n) (Fin d) ℝ) (y : Fin n → α) (x : Fin d → ℝ) (c : α)
    (h : classifierPredict (fun _ _ => 0) X y x = .ok c) (c' : α) : labelCount y c' ≤ labelCount y c := by
  obtain ⟨i₀, hi₀⟩ := C227_known _ X y x c h
  have hn : 0 < n := i₀.pos
  have hn' : (0 : ℝ) < n := by exact_mod_cast hn
  by_cases hc' : c' ∈ labelClasses y
  swap
  · have : labelCount y c' = 0 := by
      unfold labelCount
      rw [Finset.card_eq_zero, Finset.filter_eq_empty_iff]
      intro i _ e
      exact hc' ((mem_labelClasses y c').2 ⟨i, e⟩)
    omega
  have key : classScore (fun _ _ => 0) X y x c' ≤ classScore (fun _ _ => 0) X y x c → labelCount y c' ≤ labelCount y c := by
    intro hle
    rw [classScore_zero hn, classScore_zero hn] at hle
    have h2 : (2 * (labelCount y c' : ℝ)) / n ≤ 2 * labelCount y c / n := by linarith
    rw [div_le_div_iff_of_pos_right hn'] at h2
    exact_mod_cast (by linarith : (labelCount y c' : ℝ) ≤ labelCount y c)
  unfold classifierPredict at h
  split at h
  · simp at h
  · rename_i a ha
    rw [ha] at hc'
    split at h
    · simp at h
    · simp at h hc'
      rw [hc', h]
  · rename_i c₀ c₁ ha
    have hodd : ∀ v : Fin n → ℝ, (fun (_ : Matrix (Fin n) (Fin d) ℝ) (_ : Fin n → ℝ) => (0 : Fin d → ℝ)) (meanFree X) (-v) =
        -(0 : Fin d → ℝ) := fun v => by simp
    have h01 : classScore (fun _ _ => 0) X y x c₀ = -classScore (fun _ _ => 0) X y x c₁ := by
      rw [← score_eq, ← score_eq, labelColumn_other y c₀ c₁ ha, score_neg _ X hodd]
    rw [ha] at hc'
    rw [score_eq] at h
    apply key
    split at h
    · rename_i hp
      simp at h hc'
      subst h
      rcases hc' with rfl | rfl <;> linarith
    · rename_i hp
      simp at h hc'
      subst h
      rcases hc' with rfl | rfl <;> linarith
  · split at h
    · simp at h
    · split at h
      · simp at h
      · rename_i a ha
        simp at h
        subst h
        apply key
        rw [← score_eq, ← score_eq]
        exact List.le_of_mem_argmax hc' ha

/-- C227 fails at ties: with two classes of equal size and no coefficients, the first name in order is predicted, so
exchanging the two names does not exchange the predictions. -/
theorem C227_tie_false :
    let X : Matrix (Fin 2) (Fin 2) ℝ := 0
    let y : Fin 2 → ℕ := ![0, 1]
    classifierPredict (fun _ _ => 0) X y 0 = .ok 0 ∧ classifierPredict (fun _ _ => 0) X (fun j => 1 - y j) 0 = .ok 0 := by
  intro X y
  have h1 : labelClasses y = [0, 1] := by
    have : Finset.univ.image y = Finset.range 2 := by decide
    unfold labelClasses
    rw [this, Finset.sort_range]
    rfl
  have h2 : labelClasses (fun j => 1 - y j) = [0, 1] := by
    have : Finset.univ.image (fun j => 1 - y j) = Finset.range 2 := by decide
    unfold labelClasses
    rw [this, Finset.sort_range]
    rfl
  refine ⟨?_, ?_⟩
  · unfold classifierPredict
    rw [h1]
    simp only
    rw [score_eq, classScore_zero (by norm_num), if_neg]
    have : labelCount y 1 = 1 := by decide
    rw [this]
    norm_num
  · unfold classifierPredict
    rw [h2]
    simp only
    rw [score_eq, classScore_zero (by norm_num), if_neg]
    have : labelCount (fun j => 1 - y j) 1 = 1 := by decide
    rw [this]
    norm_num

/-- C227 fails for one feature: with three or more classes `fit` raises `ValueError`, whatever the data. -/
theorem C227_single_feature_false (solver : Matrix (Fin n) (Fin 1) ℝ → (Fin n → ℝ) → (Fin 1 → ℝ))
    (X : Matrix (Fin n) (Fin 1) ℝ) (y : Fin n → α) (x : Fin 1 → ℝ) (h3 : 3 ≤ (Finset.univ.image y).card) :
    classifierPredict solver X y x = .error .value := by
  have hl : (labelClasses y).length = (Finset.univ.image y).card := Finset.length_sort _
  unfold classifierPredict
  split
  · rfl
  · rename_i c h
    rw [h] at hl
    simp at hl
    omega
  · rename_i c₀ c₁ h
    rw [h] at hl
    simp at hl
    omega
  · rw [(C226_single_feature_false 0 (labelClasses y).length (by omega)).1]

/-- The loop variables with the opposite sign. -/
def negState {p : ℕ} (s : OverlapState p) : OverlapState p := ⟨fun g j => -s.x g j, -s.z, fun g j => -s.y g j⟩

theorem pStar_neg (groups : List (List ℕ)) (x : ℕ → ℕ → ℝ) (dim : ℕ) :
    pStar groups (fun g j => -x g j) dim = -pStar groups x dim := by
  have key : ∀ (l : List (List ℕ × ℕ)) (a : ℝ) (k : ℕ),
      l.foldl (fun acc gk => if dim ∈ gk.1 then (acc.1 + -x gk.2 (gk.1.idxOf dim), acc.2 + 1) else acc) (-a, k) =
        (-(l.foldl (fun acc gk => if dim ∈ gk.1 then (acc.1 + x gk.2 (gk.1.idxOf dim), acc.2 + 1) else acc) (a, k)).1,
          (l.foldl (fun acc gk => if dim ∈ gk.1 then (acc.1 + x gk.2 (gk.1.idxOf dim), acc.2 + 1) else acc) (a, k)).2) := by
    intro l
    induction l with
    | nil => intro a k; rfl
    | cons g l ih =>
      intro a k
      simp only [List.foldl_cons]
      by_cases hg : dim ∈ g.1
      · simp only [hg, if_true]
        rw [← neg_add, ih]
      · simp only [hg, if_false]
        rw [ih]
  have h := key groups.zipIdx 0 0
  rw [neg_zero] at h
  unfold pStar
  simp only [h]
  split <;> ring

theorem npNorm_neg' {m : ℕ} (v : Fin m → ℝ) : npNorm (-v) = npNorm v := by
  unfold npNorm
  simp

theorem overlapUpdate_neg {m p : ℕ} (A : Matrix (Fin m) (Fin p) ℝ) (b : Fin m → ℝ) (lamda rho : ℝ)
    (groups : List (List ℕ)) (inv : Matrix (Fin p) (Fin p) ℝ) (s : OverlapState p) :
    overlapUpdate A (-b) lamda rho groups inv (negState s) = negState (overlapUpdate A b lamda rho groups inv s) := by
  have hx : (fun g j => softScalar (-s.x g j - -s.y g j / rho) (lamda / rho)) =
      fun g j => -softScalar (s.x g j - s.y g j / rho) (lamda / rho) := by
    funext g j
    rw [← Verif.Lemmas.softScalar_neg']
    congr 1
    ring
  unfold overlapUpdate negState
  simp only [hx, pStar_neg]
  have hz : inv *ᵥ (Aᵀ *ᵥ (-b) + Matrix.diagonal (fun i : Fin p => (dFunction groups i : ℝ)) *ᵥ
      ((fun i : Fin p => -pStar groups s.y i) + rho • fun i : Fin p => -pStar groups
        (fun g j => softScalar (s.x g j - s.y g j / rho) (lamda / rho)) i)) =
      -(inv *ᵥ (Aᵀ *ᵥ b + Matrix.diagonal (fun i : Fin p => (dFunction groups i : ℝ)) *ᵥ
      ((fun i : Fin p => pStar groups s.y i) + rho • fun i : Fin p => pStar groups
        (fun g j => softScalar (s.x g j - s.y g j / rho) (lamda / rho)) i))) := by
    have e : ((fun i : Fin p => -pStar groups s.y i) + rho • fun i : Fin p => -pStar groups
        (fun g j => softScalar (s.x g j - s.y g j / rho) (lamda / rho)) i) =
        -((fun i : Fin p => pStar groups s.y i) + rho • fun i : Fin p => pStar groups
        (fun g j => softScalar (s.x g j - s.y g j / rho) (lamda / rho)) i) := by
      funext i
      simp
      ring
    rw [e, mulVec_neg, mulVec_neg, ← neg_add, mulVec_neg]
  rw [hz]
  congr 1
  funext g j
  have hxg := congrFun (congrFun hx g) j
  rw [hxg]
  unfold zGroup
  simp only [Pi.neg_apply]
  split <;> ring

theorem overlapBody_neg {m p : ℕ} (a : OverlapArgs m p) (inv : Matrix (Fin p) (Fin p) ℝ) (it : ℕ) (s : OverlapState p × ℕ) :
    overlapBody { a with b := -a.b } inv it (negState s.1, s.2) =
      ((negState (overlapBody a inv it s).1.1, (overlapBody a inv it s).1.2), (overlapBody a inv it s).2.1,
        (overlapBody a inv it s).2.2) := by
  have hh : ∀ s' : OverlapState p, ({ obj := overlapObjective a.A (-a.b) a.lamda a.groups (negState s').x (negState s').z
                                      rnorm := npNorm ((fun i : Fin p => pStar a.groups (negState s').x i) - (negState s').z)
                                      snorm := npNorm ((-a.rho) • ((negState s').z - (negState s.1).z))
                                      ePri := Real.sqrt p * a.tol + a.rtol *
                                        max (npNorm fun i : Fin p => pStar a.groups (negState s').x i) (npNorm (-(negState s').z))
                                      eDual := Real.sqrt p * a.tol + a.rtol *
                                        npNorm (a.rho • fun i : Fin p => pStar a.groups (negState s.1).y i) } : LassoHist) =
      { obj := overlapObjective a.A a.b a.lamda a.groups s'.x s'.z
        rnorm := npNorm ((fun i : Fin p => pStar a.groups s'.x i) - s'.z)
        snorm := npNorm ((-a.rho) • (s'.z - s.1.z))
        ePri := Real.sqrt p * a.tol + a.rtol * max (npNorm fun i : Fin p => pStar a.groups s'.x i) (npNorm (-s'.z))
        eDual := Real.sqrt p * a.tol + a.rtol * npNorm (a.rho • fun i : Fin p => pStar a.groups s.1.y i) } := by
    intro s'
    have hp : ∀ f : ℕ → ℕ → ℝ, (fun i : Fin p => pStar a.groups (fun g j => -f g j) i) = -fun i : Fin p => pStar a.groups f i := by
      intro f
      funext i
      exact pStar_neg a.groups f i
    unfold negState
    simp only [hp]
    congr 1
    · unfold overlapObjective copiesNorm
      congr 1
      · congr 1
        refine Finset.sum_congr rfl fun i _ => ?_
        rw [mulVec_neg]
        simp only [Pi.neg_apply]
        ring
      · simp
    · rw [← npNorm_neg']
      congr 1
      abel
    · rw [← npNorm_neg']
      congr 1
      rw [← smul_neg]
      congr 1
      abel
    · rw [npNorm_neg', npNorm_neg' (-s'.z)]
    · rw [smul_neg, npNorm_neg']
  unfold overlapBody
  simp only
  rw [overlapUpdate_neg]
  simp only [hh]
  split <;> rfl

/-- C227: the solver of the default mode treats targets of opposite sign alike: it takes the same passes, records the
same history and returns the opposite coefficients. -/
theorem C227_odd {m p : ℕ} (ragged : Bool) (npInv : Matrix (Fin p) (Fin p) ℝ → Matrix (Fin p) (Fin p) ℝ)
    (a : OverlapArgs m p) :
    groupLassoOverlap ragged npInv { a with b := -a.b } =
      (groupLassoOverlap ragged npInv a).map fun r => (-r.1, r.2.1, r.2.2) := by
  have h := runLoop_map (body := overlapBody a (npInv (overlapGram a)))
    (body' := overlapBody { a with b := -a.b } (npInv (overlapGram a))) (fun s => (negState s.1, s.2)) id (fun _ => True)
    (fun _ _ _ => trivial) (fun it s _ => overlapBody_neg a _ it s) a.maxIter (s := overlapInit p) trivial
  have hi : (negState (overlapInit p).1, (overlapInit p).2) = overlapInit p := by
    unfold overlapInit negState
    simp
  rw [hi] at h
  unfold groupLassoOverlap
  have hg : overlapGram { a with b := -a.b } = overlapGram a := rfl
  simp only [hg, h, List.map_id]
  cases (runLoop (overlapBody a (npInv (overlapGram a))) a.maxIter (overlapInit p)).lastIter with
  | none => rfl
  | some k =>
    simp only
    split <;> rfl

/-- The hypotheses of `C227_largest` are met: two classes of sizes two and one, no coefficients left. -/
example : ∀ j, (![7, 7, 3] : Fin 3 → ℕ) j ≠ (![7, 7, 3] : Fin 3 → ℕ) 0 →
    classScore (fun _ _ => 0) (0 : Matrix (Fin 3) (Fin 2) ℝ) (![7, 7, 3] : Fin 3 → ℕ) 0 ((![7, 7, 3] : Fin 3 → ℕ) j) <
      classScore (fun _ _ => 0) (0 : Matrix (Fin 3) (Fin 2) ℝ) (![7, 7, 3] : Fin 3 → ℕ) 0 ((![7, 7, 3] : Fin 3 → ℕ) 0) := by
  intro j hj
  have h7 : labelCount (![7, 7, 3] : Fin 3 → ℕ) 7 = 2 := by decide
  have h3 : labelCount (![7, 7, 3] : Fin 3 → ℕ) 3 = 1 := by decide
  rw [classScore_zero (by norm_num), classScore_zero (by norm_num)]
  fin_cases j
  · simp at hj
  · simp at hj
  · simp [h7, h3]
    norm_num

/-- A solver that treats targets of opposite sign alike and depends on the data: one step of gradient descent. -/
example (X : Matrix (Fin 3) (Fin 2) ℝ) (y : Fin 3 → ℝ) : (fun (A : Matrix (Fin 3) (Fin 2) ℝ) (b : Fin 3 → ℝ) => Aᵀ *ᵥ b)
    (meanFree X) (-y) = -((meanFree X)ᵀ *ᵥ y) := mulVec_neg _ _

/-- Three classes. -/
example : 3 ≤ (Finset.univ.image (![1, 2, 5] : Fin 3 → ℕ)).card := by decide

end Verif.Props
