import Verif.Props.Glopridu

/-! The stopping test of `glo_prox` and the outer loop `glopridu_algorithm`
(regain/wrapper/paspal/glopridu.py). -/

namespace Verif.Props

open Verif.Model Verif.Spec Verif.Lemmas Matrix

set_option autoImplicit false
set_option linter.unusedSectionVars false

/-! ### Stopping -/

section Stop

variable {κ : Type*} [Fintype κ] [DecidableEq κ] {B : ℕ}

/-- **C165** (partial) what can be read off a returned pair `(w, lamda)`: if every block of `w0 - w` is within
its radius, then `w` is within the complementarity gap of the proximal point. Missing: that the stopping
test of the code bounds this gap (`C165_stale_false`). -/
theorem C165_certificate_partial {kw : GloKw} (hq : KwParams kw) (hp : KwPinv kw) (w0 : κ → ℝ) {tau : ℝ}
    (blocks : Fin B → Finset κ) {weights : Fin B → ℝ} (hr : ∀ g, 0 < weights g * tau)
    {lamda0 : Option (Fin B → ℝ)} {lam0 : Fin B → ℝ} (hs : gloStart lamda0 = .ok lam0)
    (h0 : ∀ g, 0 ≤ lam0 g) {tol : ℝ} {maxIter : ℕ} {r : GloOut B κ}
    (hret : gloProx kw w0 tau blocks weights lamda0 tol maxIter = .ok r)
    (hfeas : ∀ g, ∑ i ∈ blocks g, (w0 i - r.w i) ^ 2 ≤ (weights g * tau) ^ 2) {w : κ → ℝ}
    (hw : IsLatentProx blocks (fun g => weights g * tau) w0 w) :
    1 / 2 * ∑ i, (w i - r.w i) ^ 2 ≤ ∑ g, r.lamda g * (weights g * tau
      * Real.sqrt (∑ i ∈ blocks g, (w0 i - r.w i) ^ 2) - ∑ i ∈ blocks g, (w0 i - r.w i) ^ 2) := by
  obtain ⟨r', h1, h2, -, h4, -, -⟩ := gloProx_ok hq hp w0 blocks (fun g => (hr g).ne') hs h0 tol maxIter
  rw [hret] at h1
  obtain rfl := Except.ok.inj h1
  have hsn := blockSum_nonneg blocks h2
  obtain ⟨z, hz, hgap⟩ := latent_gap blocks (fun g => weights g * tau) w0 (fun i => w0 i - r.w i) h2
    (fun g => (hr g).le) (fun i => by
      rw [h4 i]
      have := hsn i
      field_simp
      ring) hfeas
  obtain ⟨z', hz', hmin⟩ := hw
  have h5 := hgap w z' hz'
  have h6 := hmin _ z hz
  simp only [sub_sub_cancel] at h5 h6
  linarith

/-- One block on one feature, radius 1, `w0 = 3/2`. -/
theorem one_keep (g : Fin 1) :
    gloKeep (fun _ : Fin 1 => (3 / 2 : ℝ)) 1 (fun _ : Fin 1 => Finset.univ) (fun _ => 1) g := by
  unfold gloKeep
  refine Real.le_sqrt_of_sq_le ?_
  norm_num

/-- The kept blocks of the example. -/
abbrev GloOneIdx := {g : Fin 1 // gloKeep (fun _ : Fin 1 => (3 / 2 : ℝ)) 1 (fun _ : Fin 1 => Finset.univ)
  (fun _ => 1) g}

/-- The Newton method of the example. -/
noncomputable abbrev gloOne (kw : GloKw) (tol : ℝ) : GloArgs GloOneIdx (Fin 1) :=
  gloArgs kw (fun _ : Fin 1 => (3 / 2 : ℝ)) 1 (fun _ : Fin 1 => Finset.univ) (fun _ => 1) tol

open Classical in
theorem one_S (kw : GloKw) (tol x : ℝ) (i : Fin 1) : gloS (gloOne kw tol) (fun _ => x) i = x := by
  rw [gloS_extend]
  unfold blockSum extend
  rw [Fintype.sum_unique, if_pos (Finset.mem_univ i), dif_pos (one_keep default)]

open Classical in
theorem one_grad (kw : GloKw) (tol x : ℝ) (g : GloOneIdx) :
    gloGrad (gloOne kw tol) (fun _ => x) g = 1 - 9 / 4 * (1 / (1 + x)) ^ 2 := by
  unfold gloGrad
  simp only [one_S]
  show (1 * (1 : ℝ)) ^ 2 - ∑ _i ∈ (Finset.univ : Finset (Fin 1)), (3 / 2 * (1 / (1 + x))) ^ 2 = _
  simp only [Finset.univ_unique, Finset.sum_singleton]
  ring

open Classical in
theorem one_tmp (kw : GloKw) (tol x : ℝ) (i : Fin 1) :
    gloTmp (gloOne kw tol) (fun _ => x) i = 9 / 2 * (1 / (1 + x)) ^ 3 := by
  unfold gloTmp
  rw [one_S]
  show 2 * (3 / 2 : ℝ) ^ 2 * _ = _
  ring

open Classical in
theorem one_indep (kw : GloKw) (tol : ℝ) : GloIndep (gloOne kw tol) := by
  intro x hx
  funext g
  have hg : ∀ g' : GloOneIdx, g' = g := fun g' => Subtype.ext (Subsingleton.elim _ _)
  have h1 : x = fun _ => x g := funext fun g' => by rw [hg g']
  have h2 := hx 0 (by show (3 / 2 : ℝ) ≠ 0; norm_num)
  rw [h1, one_S] at h2
  exact h2

open Classical in
theorem one_inactive {kw : GloKw} (he : kw.epsilon ≤ 1 / 1000) (tol : ℝ) {x : ℝ} (hx : 1 / 1000 < x)
    (g : GloOneIdx) : g ∈ gloInactive (gloOne kw tol) fun _ => x := by
  rw [mem_inactive]
  right
  exact lt_of_le_of_lt (min_le_left _ _) (lt_of_le_of_lt he hx)

open Classical in
theorem one_dir {kw : GloKw} (hp : KwPinv kw) (he : kw.epsilon ≤ 1 / 1000) (tol : ℝ) {x : ℝ}
    (hx : 1 / 1000 < x) (g : GloOneIdx) :
    9 / 2 * (1 / (1 + x)) ^ 3 * gloDir (gloOne kw tol) (fun _ => x) g = 1 - 9 / 4 * (1 / (1 + x)) ^ 2 := by
  have hJ := one_inactive he tol hx
  have h := gloP_solves (gloOne kw tol) (gloArgs_pinv hp _ _ _ _ _) (lam := fun _ => x)
    (fun _ => by linarith) (one_indep kw tol)
  have h1 := congrFun h ⟨g, hJ g⟩
  rw [gloHess_mulVec, one_grad] at h1
  have hg : ∀ g' : gloInactive (gloOne kw tol) fun _ => x, g' = ⟨g, hJ g⟩ := fun g' =>
    Subtype.ext (Subtype.ext (Subsingleton.elim _ _))
  have h2 : ∀ i, gloSJ (gloOne kw tol) _ (gloP (gloOne kw tol) fun _ => x) i =
      gloDir (gloOne kw tol) (fun _ => x) g := by
    intro i
    unfold gloSJ
    have : Unique (gloInactive (gloOne kw tol) fun _ => x) := ⟨⟨⟨g, hJ g⟩⟩, hg⟩
    rw [Fintype.sum_unique, hg default, gloDir_in _ _ ⟨g, hJ g⟩]
    exact if_pos (Finset.mem_univ i)
  simp only [h2, one_tmp] at h1
  rw [← h1]
  show _ = ∑ _i ∈ (Finset.univ : Finset (Fin 1)), _
  simp only [Finset.univ_unique, Finset.sum_singleton]

open Classical in
theorem one_in {kw : GloKw} (he : kw.epsilon ≤ 1 / 1000) (tol : ℝ) :
    gloInactive (gloOne kw tol) (fun _ => (3 : ℝ)) = Finset.univ :=
  Finset.eq_univ_iff_forall.mpr (one_inactive he tol (by norm_num))

open Classical in
/-- From the multiplier 3 the first trial is 0, and the line search accepts it. -/
theorem one_search {kw : GloKw} (hq : KwParams kw) (hp : KwPinv kw) (hb : kw.beta = 1 / 2)
    (hs : kw.sBeta = 1) (hσ : kw.sigma = 1 / 10) (he : kw.epsilon ≤ 1 / 1000) (tol : ℝ) :
    gloTrial (gloOne kw tol) (fun _ => (3 : ℝ)) 1 = (fun _ => 0) ∧
      gloSearch (gloOne kw tol) (fun _ => (3 : ℝ)) = some 1 := by
  have hdir : ∀ g, gloDir (gloOne kw tol) (fun _ => (3 : ℝ)) g = 110 / 9 := by
    intro g
    have := one_dir hp he tol (x := 3) (by norm_num) g
    norm_num at this
    linarith
  have hstep : gloStep (gloOne kw tol) 1 = 1 / 2 := by
    show kw.beta ^ 1 * kw.sBeta = _
    rw [hb, hs]; norm_num
  have htrial : gloTrial (gloOne kw tol) (fun _ => (3 : ℝ)) 1 = fun _ => 0 := by
    funext g
    unfold gloTrial
    rw [hdir, hstep]
    norm_num
  have hin := one_in he tol
  have hsum : ∀ c : ℝ, ∑ _g : GloOneIdx, c = c := by
    intro c
    have : Unique GloOneIdx := ⟨⟨⟨0, one_keep 0⟩⟩, fun g => Subtype.ext (Subsingleton.elim _ _)⟩
    rw [Fintype.sum_unique]
  have htest : ¬gloTest (gloOne kw tol) (fun _ => (3 : ℝ)) 1 := by
    unfold gloTest
    rw [htrial, hstep, not_lt]
    have hx : gloXin (gloOne kw tol) (fun _ => (3 : ℝ)) = 55 / 64 * (110 / 9) := by
      unfold gloXin
      rw [hin]
      simp only [hdir, one_grad]
      rw [hsum]
      norm_num
    have hxa : gloXact (gloOne kw tol) (fun _ => (3 : ℝ)) (fun _ => 0) = 0 := by
      unfold gloXact
      rw [hin]
      simp
    have hf : gloFdiff (gloOne kw tol) (fun _ => (3 : ℝ)) (fun _ => 0) = 21 / 16 := by
      unfold gloFdiff
      simp only [one_S]
      show ∑ _i : Fin 1, (3 / 2 : ℝ) ^ 2 * _ + ∑ _g : GloOneIdx, (1 * (1 : ℝ)) ^ 2 * _ = _
      rw [hsum]
      simp only [Finset.univ_unique, Finset.sum_singleton]
      norm_num
    rw [hx, hxa, hf]
    show kw.sigma * _ ≤ _
    rw [hσ]
    norm_num
  have hsearch : gloSearch (gloOne kw tol) (fun _ => (3 : ℝ)) = some 1 := by
    obtain ⟨m, hm, hm1, -, hm3⟩ := gloSearch_some (gloOne kw tol) (gloArgs_params hq _ _ _ _ _)
      (gloArgs_pinv hp _ _ _ _ _) (lam := fun _ => (3 : ℝ)) (fun _ => by norm_num)
      (gloArgs_block kw _ _ tol fun g => by norm_num)
    rcases hm1.lt_or_eq with h | h
    · exact absurd (hm3 1 le_rfl h) htest
    · rw [hm, ← h]
  exact ⟨htrial, hsearch⟩

/-- **C165** (finding) the exit test looks at the gradient of the multipliers before the update: started from
the multiplier 3, the method overshoots to 0 in its first pass and stops there, for every tolerance and every
budget; it returns 0 although the proximal point is 1/2. -/
theorem C165_stale_false {kw : GloKw} (hq : KwParams kw) (hp : KwPinv kw) (hb : kw.beta = 1 / 2)
    (hs : kw.sBeta = 1) (hσ : kw.sigma = 1 / 10) (he : kw.epsilon ≤ 1 / 1000) :
    ∃ (w0 : Fin 1 → ℝ) (blocks : Fin 1 → Finset (Fin 1)) (lam0 : Fin 1 → ℝ), (∀ g, 0 ≤ lam0 g) ∧
      IsLatentProx blocks (fun _ => 1 * (1 : ℝ)) w0 (fun _ => 1 / 2) ∧
      ∀ (tol : ℝ) (maxIter : ℕ), ∃ r,
        gloProx kw w0 1 blocks (fun _ => 1) (some lam0) tol (maxIter + 1) = .ok r ∧ r.w = fun _ => 0 := by
  classical
  refine ⟨fun _ => 3 / 2, fun _ => Finset.univ, fun _ => 3, fun _ => by norm_num, ?_, fun tol maxIter => ?_⟩
  · have h := latent_kkt (fun _ : Fin 1 => (Finset.univ : Finset (Fin 1))) (fun _ => 1 * (1 : ℝ))
      (fun _ => 3 / 2) (fun _ => 1) (x := fun _ => 1 / 2) (fun _ => by norm_num) (fun _ => by norm_num)
      (fun i => by
        have : blockSum (fun _ : Fin 1 => (Finset.univ : Finset (Fin 1))) (fun _ => (1 / 2 : ℝ)) i = 1 / 2 := by
          fin_cases i; simp [blockSum]
        rw [this]; norm_num) (fun g => by simp) (fun g _ => by simp)
    have e : (fun i : Fin 1 => (3 / 2 : ℝ) - 1) = fun _ => 1 / 2 := by funext i; norm_num
    rw [e] at h
    exact h.1
  · have hstart : gloStart (some (fun _ : Fin 1 => (3 : ℝ))) = .ok fun _ => 3 := by
      unfold gloStart notArray
      simp
    obtain ⟨r, h1, -, -, h4, -, h6⟩ := gloProx_ok hq hp (fun _ : Fin 1 => (3 / 2 : ℝ))
      (fun _ : Fin 1 => (Finset.univ : Finset (Fin 1))) (weights := fun _ => 1) (tau := 1)
      (fun g => by norm_num) hstart (fun _ => by norm_num) tol (maxIter + 1)
    refine ⟨r, h1, ?_⟩
    obtain ⟨htrial, hsearch⟩ := one_search hq hp hb hs hσ he tol
    have hin := one_in he tol
    have hbody : gloBody (gloOne kw tol) 0 ⟨fun _ => 3, 0, false⟩ = (⟨fun _ => 0, 0, false⟩, ⟨⟩, true) := by
      unfold gloBody
      simp only [hsearch, htrial]
      have hcard : ¬(gloInactive (gloOne kw tol) (fun _ => (3 : ℝ))).card = 0 := by
        rw [hin]
        exact Finset.card_ne_zero_of_mem (Finset.mem_univ (⟨0, one_keep 0⟩ : GloOneIdx))
      simp only [if_neg hcard]
      rw [if_neg (by norm_num)]
      simp only [Prod.mk.injEq, true_and, decide_eq_true_eq]
      refine ⟨fun g _ => ?_, fun g hg => absurd hg (lt_irrefl _)⟩
      rw [one_grad]
      norm_num
    have hloop : (gloLoop (gloOne kw tol) (maxIter + 1) fun _ => (3 : ℝ)).state.lamda = fun _ => 0 := by
      unfold gloLoop runLoop forElse
      simp only [hbody]
      rfl
    have hlam : r.lamda = fun _ => 0 := by
      rw [h6]
      funext g
      unfold extend
      rw [dif_pos (one_keep g)]
      have := congrFun hloop ⟨g, one_keep g⟩
      convert this
    funext i
    rw [h4 i, hlam]
    unfold blockSum
    simp

/-! Concrete cases for C162-C165. -/

/-- The parameters and the pseudo-inverse of C162, C163 and C165_stale_false. -/
example : ∃ kw : GloKw, KwParams kw ∧ KwPinv kw ∧ kw.beta = 1 / 2 ∧ kw.sBeta = 1 ∧ kw.sigma = 1 / 10 ∧
    kw.epsilon ≤ 1 / 1000 ∧
    (∃ r, gloProx kw (fun i : Fin 2 => if i = 0 then 1 else 3) 1 nestBlocks (fun _ => 1) none 0 100 = .ok r) := by
  obtain ⟨kw, h1, h2, h3, h4, h5, h6⟩ := exists_kw
  exact ⟨kw, h2, h1, h3, h5, h4, h6.le, C162_search_ends h2 h1 _ nestBlocks (fun _ => by norm_num)
    (gloStart_none 3) (fun _ => le_rfl) 0 100⟩

open Classical in
/-- A step of C163_strict that moves. -/
example : ∃ kw : GloKw, gloDual (gloOne kw 0) (fun _ => 0) < gloDual (gloOne kw 0) fun _ => 3 := by
  obtain ⟨kw, h1, h2, h3, h4, h5, h6⟩ := exists_kw
  refine ⟨kw, ?_⟩
  obtain ⟨ht, hs⟩ := one_search h2 h1 h3 h5 h4 h6.le 0
  have h := C163_strict (gloOne kw 0) (gloArgs_params h2 _ _ _ _ _) (by
      show 0 < kw.sigma
      rw [h4]; norm_num) (gloArgs_pinv h1 _ _ _ _ _)
    (lam := fun _ => (3 : ℝ)) (fun _ => by norm_num) (gloArgs_block kw _ _ 0 fun g => by norm_num) hs
    (by
      rw [ht]
      intro h
      have := congrFun h ⟨0, one_keep 0⟩
      norm_num at this)
  rwa [ht] at h

/-- Settled multipliers as in C164_settled_partial and a certificate as in C165_certificate_partial: the
proximal point 1/2 of 3/2. -/
example : ∃ (kw : GloKw) (r : GloOut 1 (Fin 1)),
    gloProx kw (fun _ => 3 / 2) 1 (fun _ : Fin 1 => Finset.univ) (fun _ => 1) (some fun _ => 1 / 2) 0 0 = .ok r ∧
    (∀ _g : Fin 1, ∑ i ∈ (Finset.univ : Finset (Fin 1)), (3 / 2 - r.w i) ^ 2 ≤ (1 * (1 : ℝ)) ^ 2) ∧
    IsLatentProx (fun _ : Fin 1 => Finset.univ) (fun _ => 1 * (1 : ℝ)) (fun _ => 3 / 2) r.w := by
  classical
  obtain ⟨kw, h1, h2, h3, h4, h5, h6⟩ := exists_kw
  have hst : gloStart (some fun _ : Fin 1 => (1 / 2 : ℝ)) = .ok fun _ => 1 / 2 := by
    unfold gloStart notArray
    simp
  obtain ⟨r, hr, -, -, hw, -, hl⟩ := gloProx_ok h2 h1 (fun _ : Fin 1 => (3 / 2 : ℝ))
    (fun _ : Fin 1 => (Finset.univ : Finset (Fin 1))) (weights := fun _ => 1) (tau := 1)
    (fun g => by norm_num) hst (fun _ => by norm_num) 0 0
  have hlam : r.lamda = fun _ => 1 / 2 := by
    rw [hl]
    funext g
    unfold extend
    rw [dif_pos (one_keep g)]
    rfl
  have hrw : ∀ i, r.w i = 1 / 2 := by
    intro i
    rw [hw i, hlam]
    have : blockSum (fun _ : Fin 1 => (Finset.univ : Finset (Fin 1))) (fun _ => (1 / 2 : ℝ)) i = 1 / 2 := by
      fin_cases i; simp [blockSum]
    rw [this]
    norm_num
  refine ⟨kw, r, hr, fun g => ?_, (C164_settled_partial h2 h1 _ _ (fun g => by norm_num)
    (fun g => by norm_num) (fun x hx => ?_) hst (fun _ => by norm_num) hr ⟨1, ?_⟩).1⟩
  · simp only [hrw]
    norm_num
  · have := hx 0 (by norm_num)
    unfold blockSum at this
    funext g
    rw [Subsingleton.elim g 0]
    simpa using this
  · simp only [hlam]
    funext g
    have hd := one_dir h1 h6.le 0 (x := 1 / 2) (by norm_num) g
    norm_num at hd
    unfold gloTrial
    have hd' : gloDir (gloArgs kw (fun _ : Fin 1 => (3 / 2 : ℝ)) 1 (fun _ : Fin 1 => Finset.univ) (fun _ => 1) 0)
        (fun _ => (1 / 2 : ℝ)) g = 0 := by
      convert hd using 2
    rw [hd']
    norm_num

end Stop

/-! ### The outer loop -/

section Outer

variable {n d B : ℕ}

/-- **C166** (finding) with two groups or more the solver raises `ValueError` in its first iteration: the
multipliers it passes on are an array, and `not lamda0` has no value for an array with several elements. -/
theorem C166_groups_false (kw : GloKw) (a : GlopriduArgs n d B) (hB : 2 ≤ B) (hit : 1 ≤ a.maxIterExt) :
    glopridu kw a = .error (.raised .value) := by
  obtain ⟨k, hk⟩ : ∃ k, a.maxIterExt = k + 1 := ⟨a.maxIterExt - 1, by omega⟩
  have hs : gloStart (some (gpInit (n := n) (d := d) (B := B)).lamda) = .error (.raised .value) := by
    unfold gloStart notArray
    simp only [dif_neg (show ¬B = 1 by omega), if_neg (show ¬B = 0 by omega)]
  have hp : gpBody kw a 0 gpInit = .error (.raised .value) := by
    unfold gpBody gloProx
    simp only [hs]
  unfold glopridu
  rw [hk]
  unfold gpLoop
  simp only [hp]

theorem gloStart_one (l : Fin 1 → ℝ) : gloStart (some l) = .ok l := by
  classical
  unfold gloStart notArray
  simp only [dif_pos]
  by_cases h : l 0 = 0
  · have : l = fun _ => 0 := by funext g; fin_cases g; exact h
    rw [this]
    simp
  · simp [h]

/-- The invariant of the outer loop for one group. -/
structure GpInv (a : GlopriduArgs n d 1) (s : GlopriduState n d 1) : Prop where
  lam : ∀ g, 0 ≤ s.lamda g
  xb : s.Xb = a.X *ᵥ s.beta
  xh : s.Xh = a.X *ᵥ s.h
  out : ∀ i, i ∉ a.blocks 0 → s.beta i = 0
  tpos : 1 ≤ s.t

theorem gpNextT_ge {t : ℝ} (ht : 1 ≤ t) : 1 ≤ gpNextT t := by
  unfold gpNextT
  have : 1 ≤ Real.sqrt (1 + 4 * t * t) := by
    rw [Real.one_le_sqrt]
    nlinarith
  linarith

theorem gpBody_one {kw : GloKw} (hq : KwParams kw) (hp : KwPinv kw) (a : GlopriduArgs n d 1)
    (htau : a.tau / gpSigma a ≠ 0) (it : ℕ) {s : GlopriduState n d 1} (hs : GpInv a s) :
    ∃ s' brk, gpBody kw a it s = .ok (s', brk) ∧ GpInv a s' := by
  obtain ⟨r, h1, h2, -, h4, -, -⟩ := gloProx_ok hq hp (gpPoint a s) a.blocks (weights := fun _ => 1)
    (tau := a.tau / gpSigma a) (fun g => by rwa [one_mul]) (gloStart_one s.lamda) hs.lam
    (a.tolInt * ((it : ℝ) + 1) ^ (-3 / 2 : ℝ)) a.maxIterInt
  refine ⟨_, _, by unfold gpBody; simp only [h1]; rfl, h2, rfl, ?_, fun i hi => ?_, gpNextT_ge hs.tpos⟩
  · rw [hs.xb]
    simp only [Matrix.mulVec_add, Matrix.mulVec_smul, Matrix.mulVec_sub]
    have e : (1 - s.t) / gpNextT s.t = -((s.t - 1) / gpNextT s.t) := by ring
    rw [e, smul_sub, add_smul, one_smul, neg_smul]
    abel
  · have : blockSum a.blocks r.lamda i = 0 :=
      Finset.sum_eq_zero fun g _ => if_neg (by rw [Subsingleton.elim g 0]; exact hi)
    show r.w i = 0
    rw [h4 i, this]; simp

/-- **C166** with one group (the only number the code accepts besides none) every call returns a coefficient
vector that vanishes outside the group, whatever the data, the tolerances and the budget. -/
theorem C166_one_group {kw : GloKw} (hq : KwParams kw) (hp : KwPinv kw) (a : GlopriduArgs n d 1)
    (htau : a.tau / gpSigma a ≠ 0) :
    ∃ beta lam k, glopridu kw a = .ok (beta, lam, k) ∧ k ≤ a.maxIterExt ∧ (∀ g, 0 ≤ lam g) ∧
      ∀ i, i ∉ a.blocks 0 → beta i = 0 := by
  have main : ∀ fuel it s, GpInv a s → ∃ s' k, gpLoop kw a fuel it s = .ok (s', k) ∧ k ≤ it + fuel ∧
      GpInv a s' := by
    intro fuel
    induction fuel with
    | zero => exact fun it s hs => ⟨s, it, rfl, le_rfl, hs⟩
    | succ fuel ih =>
      intro it s hs
      obtain ⟨s', brk, h1, h2⟩ := gpBody_one hq hp a htau it hs
      unfold gpLoop
      simp only [h1]
      cases brk with
      | true => exact ⟨s', it + 1, rfl, by omega, h2⟩
      | false =>
        obtain ⟨s'', k, h3, h4, h5⟩ := ih (it + 1) s' h2
        exact ⟨s'', k, h3, by omega, h5⟩
  obtain ⟨s, k, h1, h2, h3⟩ := main a.maxIterExt 0 gpInit
    ⟨fun _ => le_rfl, by simp [gpInit], by simp [gpInit], fun _ _ => rfl, le_rfl⟩
  refine ⟨s.beta, s.lamda, k, ?_, by omega, h3.lam, h3.out⟩
  unfold glopridu
  simp only [h1]

/-! ### What the outer loop minimises -/

section Fixed

variable {κ : Type*} [Fintype κ]

theorem sqrt_convex (x y : κ → ℝ) {t : ℝ} (h0 : 0 ≤ t) (h1 : t ≤ 1) :
    Real.sqrt (∑ i, ((1 - t) * x i + t * y i) ^ 2) ≤
      (1 - t) * Real.sqrt (∑ i, x i ^ 2) + t * Real.sqrt (∑ i, y i ^ 2) := by
  have hx : (0 : ℝ) ≤ ∑ i, x i ^ 2 := Finset.sum_nonneg fun _ _ => sq_nonneg _
  have hy : (0 : ℝ) ≤ ∑ i, y i ^ 2 := Finset.sum_nonneg fun _ _ => sq_nonneg _
  have hc : ∑ i, x i * y i ≤ Real.sqrt (∑ i, x i ^ 2) * Real.sqrt (∑ i, y i ^ 2) :=
    Real.sum_mul_le_sqrt_mul_sqrt _ _ _
  refine Real.sqrt_le_iff.mpr ⟨by
    have := Real.sqrt_nonneg (∑ i, x i ^ 2)
    have := Real.sqrt_nonneg (∑ i, y i ^ 2)
    have : 0 ≤ 1 - t := by linarith
    positivity, ?_⟩
  have e : ∑ i, ((1 - t) * x i + t * y i) ^ 2 = (1 - t) ^ 2 * ∑ i, x i ^ 2 +
      2 * (t * (1 - t)) * ∑ i, x i * y i + t ^ 2 * ∑ i, y i ^ 2 := by
    simp only [Finset.mul_sum, ← Finset.sum_add_distrib]
    exact Finset.sum_congr rfl fun i _ => by ring
  rw [e]
  have h2 := Real.sq_sqrt hx
  have h3 := Real.sq_sqrt hy
  have h4 : 0 ≤ t * (1 - t) := mul_nonneg h0 (by linarith)
  nlinarith [mul_le_mul_of_nonneg_left hc h4]

/-- For a convex quadratic `F` with gradient `v` at `b`, the minimisers of the overlap problem are the
solutions of its variational inequality. -/
theorem overlap_vi (blocks : Fin B → Finset κ) {r : Fin B → ℝ} (hr : ∀ g, 0 ≤ r g) {F : (κ → ℝ) → ℝ}
    {b v : κ → ℝ} {Q : (κ → ℝ) → ℝ} (hQ : ∀ x, 0 ≤ Q x) (hQt : ∀ (t : ℝ) x, Q (fun i => t * x i) = t ^ 2 * Q x)
    (hF : ∀ b', F b' = F b + ∑ i, v i * (b' i - b i) + Q fun i => b' i - b i) :
    IsOverlapMin blocks r F b ↔ ∃ z, IsLatentSplit blocks b z ∧ ∀ b' z', IsLatentSplit blocks b' z' →
      ∑ g, r g * Real.sqrt (∑ i, z g i ^ 2) ≤
        ∑ i, v i * (b' i - b i) + ∑ g, r g * Real.sqrt (∑ i, z' g i ^ 2) := by
  constructor
  · rintro ⟨z, hz, hmin⟩
    refine ⟨z, hz, fun b' z' hz' => ?_⟩
    -- test with points of the segment
    have key : ∀ t : ℝ, 0 < t → t ≤ 1 → ∑ g, r g * Real.sqrt (∑ i, z g i ^ 2) ≤
        ∑ i, v i * (b' i - b i) + ∑ g, r g * Real.sqrt (∑ i, z' g i ^ 2) + t * Q fun i => b' i - b i := by
      intro t ht ht1
      have hsp : IsLatentSplit blocks (fun i => b i + t * (b' i - b i))
          fun g i => (1 - t) * z g i + t * z' g i := by
        refine ⟨fun i => ?_, fun g i hi => by simp [hz.2 g i hi, hz'.2 g i hi]⟩
        show b i + t * (b' i - b i) = ∑ g, ((1 - t) * z g i + t * z' g i)
        rw [hz.1 i, hz'.1 i, Finset.sum_add_distrib, ← Finset.mul_sum, ← Finset.mul_sum]
        ring
      have h1 := hmin _ _ hsp
      rw [hF fun i => b i + t * (b' i - b i)] at h1
      simp only [add_sub_cancel_left] at h1
      rw [hQt] at h1
      have h2 : ∑ g, r g * Real.sqrt (∑ i, ((1 - t) * z g i + t * z' g i) ^ 2) ≤
          (1 - t) * ∑ g, r g * Real.sqrt (∑ i, z g i ^ 2) + t * ∑ g, r g * Real.sqrt (∑ i, z' g i ^ 2) := by
        rw [Finset.mul_sum, Finset.mul_sum, ← Finset.sum_add_distrib]
        refine Finset.sum_le_sum fun g _ => ?_
        have := mul_le_mul_of_nonneg_left (sqrt_convex (z g) (z' g) ht.le ht1) (hr g)
        linarith
      have h3 : ∑ i, v i * (t * (b' i - b i)) = t * ∑ i, v i * (b' i - b i) := by
        rw [Finset.mul_sum]; exact Finset.sum_congr rfl fun i _ => by ring
      rw [h3] at h1
      refine le_of_mul_le_mul_left ?_ ht
      nlinarith
    have hq := hQ fun i => b' i - b i
    refine le_of_forall_pos_le_add fun ε hε => ?_
    have hd : (0 : ℝ) < 1 + Q fun i => b' i - b i := by linarith
    have h := key (min 1 (ε / (1 + Q fun i => b' i - b i))) (lt_min one_pos (div_pos hε hd)) (min_le_left _ _)
    refine h.trans ?_
    have h2 : min 1 (ε / (1 + Q fun i => b' i - b i)) * Q (fun i => b' i - b i) ≤ ε := by
      refine (mul_le_mul_of_nonneg_right (min_le_right _ _) hq).trans ?_
      rw [div_mul_eq_mul_div, div_le_iff₀ hd]
      nlinarith
    linarith
  · rintro ⟨z, hz, hvi⟩
    refine ⟨z, hz, fun b' z' hz' => ?_⟩
    rw [hF b']
    have h1 := hvi b' z' hz'
    have h2 := hQ fun i => b' i - b i
    linarith

end Fixed

/-- **C167** (partial) at every point of the outer loop (`Xh = X h`), `h` is left unchanged by an exact
proximal step iff it minimises `1/(2n) ‖Xβ - Y‖² + mu/2 ‖β‖² + tau ∑_g ‖z_g‖`, the group lasso with overlap,
with `mu = smooth_par * sigma0`. Missing: that the inner steps are exact (`C164_radius_false`,
`C164_nested_false`, `C165_stale_false`) and convergence. -/
theorem C167_fixed_partial (a : GlopriduArgs n d B) (s : GlopriduState n d B) (hXh : s.Xh = a.X *ᵥ s.h)
    (hn : 0 < n) (hσ : 0 < gpSigma a) (hmu : 0 ≤ gpMu a) (htau : 0 ≤ a.tau) :
    IsLatentProx a.blocks (fun _ => 1 * (a.tau / gpSigma a)) (gpPoint a s) s.h ↔
      IsOverlapMin a.blocks (fun _ => a.tau) (ridgeRisk a.X a.Y (gpMu a)) s.h := by
  have hn' : (0 : ℝ) < n := by exact_mod_cast hn
  set σ := gpSigma a with hσd
  set μ := gpMu a with hμd
  -- the gradient of the risk at `h`
  set v : Fin d → ℝ := fun i => 1 / n * (∑ k, a.X k i * ((∑ j, a.X k j * s.h j) - a.Y k)) + μ * s.h i with hv
  have hpt : ∀ i, s.h i - gpPoint a s i = v i / σ := by
    intro i
    have hi : (a.Xᵀ *ᵥ (a.Y - s.Xh)) i = -∑ k, a.X k i * ((∑ j, a.X k j * s.h j) - a.Y k) := by
      rw [hXh, ← Finset.sum_neg_distrib]
      show ∑ k, a.X k i * (a.Y k - ∑ j, a.X k j * s.h j) = _
      exact Finset.sum_congr rfl fun k _ => by ring
    show s.h i - ((1 - μ / σ) * s.h i + 1 / (n * σ) * (a.Xᵀ *ᵥ (a.Y - s.Xh)) i) = _
    rw [hi, hv]
    field_simp
    ring
  have hprox : IsLatentProx a.blocks (fun _ => 1 * (a.tau / σ)) (gpPoint a s) s.h ↔
      IsOverlapMin a.blocks (fun _ => a.tau / σ) (fun b => 1 / 2 * ∑ i, (b i - gpPoint a s i) ^ 2) s.h := by
    unfold IsLatentProx IsOverlapMin latentCost
    simp only [one_mul]
  rw [hprox, overlap_vi a.blocks (fun _ => div_nonneg htau hσ.le) (v := fun i => v i / σ)
      (Q := fun x => 1 / 2 * ∑ i, x i ^ 2) (fun x => by positivity)
      (fun t x => by simp only [mul_pow, ← Finset.mul_sum]; ring)
      (fun b' => by
        simp only [← hpt, Finset.mul_sum, ← Finset.sum_add_distrib]
        exact Finset.sum_congr rfl fun i _ => by ring),
    overlap_vi a.blocks (fun _ => htau) (v := v)
      (Q := fun x => 1 / (2 * n) * (∑ k, (∑ i, a.X k i * x i) ^ 2) + μ / 2 * ∑ i, x i ^ 2)
      (fun x => by positivity)
      (fun t x => by
        have e : ∀ k, ∑ i, a.X k i * (t * x i) = t * ∑ i, a.X k i * x i := fun k => by
          rw [Finset.mul_sum]; exact Finset.sum_congr rfl fun i _ => by ring
        simp only [e, mul_pow, ← Finset.mul_sum]; ring)
      (fun b' => by
        have e1 : ∀ k, ∑ i, a.X k i * b' i = (∑ i, a.X k i * s.h i) + ∑ i, a.X k i * (b' i - s.h i) :=
          fun k => by
            rw [← Finset.sum_add_distrib]; exact Finset.sum_congr rfl fun i _ => by ring
        have e2 : ∑ i, (∑ k, a.X k i * ((∑ j, a.X k j * s.h j) - a.Y k)) * (b' i - s.h i) =
            ∑ k, ((∑ j, a.X k j * s.h j) - a.Y k) * ∑ i, a.X k i * (b' i - s.h i) := by
          simp only [Finset.sum_mul, Finset.mul_sum]
          rw [Finset.sum_comm]
          exact Finset.sum_congr rfl fun k _ => Finset.sum_congr rfl fun i _ => by ring
        have e3 : ∑ i, v i * (b' i - s.h i) =
            1 / n * (∑ k, ((∑ j, a.X k j * s.h j) - a.Y k) * ∑ i, a.X k i * (b' i - s.h i)) +
            μ * ∑ i, s.h i * (b' i - s.h i) := by
          rw [← e2, Finset.mul_sum, Finset.mul_sum, ← Finset.sum_add_distrib]
          exact Finset.sum_congr rfl fun i _ => by rw [hv]; ring
        have e4 : ∑ k, (((∑ i, a.X k i * s.h i) + ∑ i, a.X k i * (b' i - s.h i)) - a.Y k) ^ 2 =
            ∑ k, ((∑ i, a.X k i * s.h i) - a.Y k) ^ 2 +
            2 * (∑ k, ((∑ j, a.X k j * s.h j) - a.Y k) * ∑ i, a.X k i * (b' i - s.h i)) +
            ∑ k, (∑ i, a.X k i * (b' i - s.h i)) ^ 2 := by
          rw [Finset.mul_sum, ← Finset.sum_add_distrib, ← Finset.sum_add_distrib]
          exact Finset.sum_congr rfl fun k _ => by ring
        have e5 : ∑ i, b' i ^ 2 = ∑ i, s.h i ^ 2 + 2 * (∑ i, s.h i * (b' i - s.h i)) +
            ∑ i, (b' i - s.h i) ^ 2 := by
          rw [Finset.mul_sum, ← Finset.sum_add_distrib, ← Finset.sum_add_distrib]
          exact Finset.sum_congr rfl fun k _ => by ring
        unfold ridgeRisk
        simp only [e1]
        rw [e3, e4, e5]
        field_simp
        ring)]
  refine exists_congr fun z => and_congr_right fun _ => forall_congr' fun b' => forall_congr' fun z' =>
    imp_congr_right fun _ => ?_
  have h1 : ∀ x : Fin B → Fin d → ℝ, ∑ g, a.tau / σ * Real.sqrt (∑ i, x g i ^ 2) =
      (∑ g, a.tau * Real.sqrt (∑ i, x g i ^ 2)) / σ := by
    intro x
    rw [Finset.sum_div]
    exact Finset.sum_congr rfl fun g _ => by ring
  have h2 : ∑ i, v i / σ * (b' i - s.h i) = (∑ i, v i * (b' i - s.h i)) / σ := by
    rw [Finset.sum_div]
    exact Finset.sum_congr rfl fun g _ => by ring
  rw [h1, h1, h2, ← add_div, div_le_div_iff_of_pos_right hσ]

/-- The states the loop reaches satisfy `Xh = X h` (one group; with several the first pass raises). -/
theorem C167_states {kw : GloKw} (hq : KwParams kw) (hp : KwPinv kw) (a : GlopriduArgs n d 1)
    (htau : a.tau / gpSigma a ≠ 0) {it : ℕ} {s s' : GlopriduState n d 1} {brk : Bool} (hs : GpInv a s)
    (h : gpBody kw a it s = .ok (s', brk)) : s'.Xh = a.X *ᵥ s'.h ∧ s'.Xb = a.X *ᵥ s'.beta := by
  obtain ⟨s'', brk', h1, h2⟩ := gpBody_one hq hp a htau it hs
  rw [h] at h1
  obtain ⟨rfl, -⟩ := Prod.mk.inj (Except.ok.inj h1)
  exact ⟨h2.xh, h2.xb⟩

/-! A concrete case for C166 and C167. -/

/-- One observation `x = 1`, `y = 3/2`, one group, `tau = 1`. -/
noncomputable def oneFit : GlopriduArgs 1 1 1 where
  X := 1
  Y := fun _ => 3 / 2
  blocks := fun _ => Finset.univ
  tau := 1
  smoothPar := 0
  maxIterExt := 100
  maxIterInt := 100
  tolExt := 0
  tolInt := 1
  norm2 := 1

theorem oneFit_sigma : gpSigma oneFit = 1 := by
  simp [gpSigma, gpSigma0, gpMu, oneFit]

example : ∃ (kw : GloKw) (beta : Fin 1 → ℝ) (lam : Fin 1 → ℝ) (k : ℕ), glopridu kw oneFit = .ok (beta, lam, k) := by
  obtain ⟨kw, h1, h2, -⟩ := exists_kw
  obtain ⟨b, l, k, h, -⟩ := C166_one_group h2 h1 oneFit (by rw [oneFit_sigma]; simp [oneFit])
  exact ⟨kw, b, l, k, h⟩

/-- The hypotheses of C167 at `h = 1/2`, where both sides hold. -/
example : IsOverlapMin oneFit.blocks (fun _ => oneFit.tau) (ridgeRisk oneFit.X oneFit.Y (gpMu oneFit))
    fun _ => 1 / 2 := by
  let s : GlopriduState 1 1 1 := ⟨0, fun _ => 1 / 2, 1, 0, fun _ => 1 / 2, 0⟩
  refine (C167_fixed_partial oneFit s ?_ one_pos (by rw [oneFit_sigma]; norm_num)
    (by simp [gpMu, oneFit]) (by simp [oneFit])).mp ?_
  · simp [s, oneFit]
  · have hp : gpPoint oneFit s = fun _ => 3 / 2 := by
      funext i
      unfold gpPoint
      rw [oneFit_sigma]
      simp [oneFit, s, gpMu]
    rw [hp, oneFit_sigma]
    have h := latent_kkt (fun _ : Fin 1 => (Finset.univ : Finset (Fin 1))) (fun _ => 1 * ((1 : ℝ) / 1))
      (fun _ => 3 / 2) (fun _ => 1) (x := fun _ => 1 / 2) (fun _ => by norm_num) (fun _ => by norm_num)
      (fun i => by
        have : blockSum (fun _ : Fin 1 => (Finset.univ : Finset (Fin 1))) (fun _ => (1 / 2 : ℝ)) i = 1 / 2 := by
          fin_cases i; simp [blockSum]
        rw [this]; norm_num) (fun g => by simp) (fun g _ => by simp)
    have e : (fun i : Fin 1 => (3 / 2 : ℝ) - 1) = fun _ => 1 / 2 := by funext i; norm_num
    rw [e] at h
    exact h.1

end Outer

end Verif.Props
