import Verif.Lemmas.Relabel
import Verif.Props.LatentOne
import Verif.Model.Estimators
import Verif.Model.Init

/-! C183: the order in which the variables are listed and the sign with which they are measured do not matter. -/

namespace Verif.Props

open Matrix Verif.Model Verif.Spec Verif.Lemmas

set_option autoImplicit false
set_option linter.unusedSectionVars false

variable {n : Type*} [Fintype n] [DecidableEq n] (r : Relabel n)

/-! ### What the user sees of a call on relabelled variables -/

/-- The same outcome with relabelled matrices: exception, history, number of iterations and warning are unchanged. -/
def relabelGL : GLReturn n → GLReturn n
  | .unbound => .unbound
  | .ok Z S h i w => .ok (r.mat Z) (r.mat S) h i w

/-- The same for the latent graphical lasso. -/
def relabelLGL : LGLReturn n → LGLReturn n
  | .unbound => .unbound
  | .ok K L h i w => .ok (r.mat K) (r.mat L) h i w

/-- The same for the infimal convolution. -/
def relabelInf : InfReturn n → InfReturn n
  | .unbound => .unbound
  | .ok K L h i w => .ok (r.mat K) (r.mat L) h i w

/-- The same for the time-varying graphical lasso. -/
def relabelTGL {T : ℕ} : TGLReturn T n → TGLReturn T n
  | .unbound => .unbound
  | .ok Z h i w => .ok (fun t => r.mat (Z t)) h i w

/-- The same for the kernel version. -/
def relabelKT {k : ℕ} : KTReturn k n → KTReturn k n
  | .unbound => .unbound
  | .ok Z h i w => .ok (fun t => r.mat (Z t)) h i w

/-- The same for the latent time-varying solvers. -/
def relabelLT {k : ℕ} : LTReturn k n → LTReturn k n
  | .unbound => .unbound
  | .ok K L h i w => .ok (fun t => r.mat (K t)) (fun t => r.mat (L t)) h i w

/-! ### graphical_lasso -/

theorem relabel_glK {eigh eigh' : Eigh n} (he : IsEighOracle eigh) (he' : IsEighOracle eigh') {S : Matrix n n ℝ}
    (hS : S.IsSymm) (rho : ℝ) (Z U : Matrix n n ℝ) :
    glK eigh' (r.mat S) rho (r.mat Z) (r.mat U) = r.mat (glK eigh S rho Z U) := by
  unfold glK
  simp only [← mat_sub, mat_symmetrize, ← mat_smul]
  refine mat_proxLogdet r he he' ?_ _
  rw [IsSymm, transpose_sub, transpose_smul, (symmetrize_symm _).eq, hS.eq]

/-- The loop variables with relabelled matrices. -/
def glMap (s : GLState n) : GLState n := ⟨r.mat s.Z, r.mat s.U, r.mat s.Zold, s.rho⟩

theorem relabel_glBody {eigh eigh' : Eigh n} (he : IsEighOracle eigh) (he' : IsEighOracle eigh') (a : GLArgs n)
    (hS : a.empCov.IsSymm) (it : ℕ) (s : GLState n) :
    glBody eigh' { a with empCov := r.mat a.empCov } it (glMap r s) =
      (glMap r (glBody eigh a it s).1, (glBody eigh a it s).2.1, (glBody eigh a it s).2.2) := by
  unfold glBody glKhat glZ
  simp only [glMap, relabel_glK r he he' hS]
  simp only [← mat_smul, ← mat_sub, ← mat_add, mat_softOff, mat_froNorm]
  split <;> simp

/-- Graphical lasso. -/
theorem C183_graphical_lasso {eigh eigh' : Eigh n} (he : IsEighOracle eigh) (he' : IsEighOracle eigh') (a : GLArgs n)
    (hS : a.empCov.IsSymm) (Z0 : Matrix n n ℝ) (rho : ℝ) (maxIter : ℕ) (returnHistory returnNIter : Bool) :
    graphicalLasso eigh' { a with empCov := r.mat a.empCov } (r.mat Z0) rho maxIter returnHistory returnNIter =
      relabelGL r (graphicalLasso eigh a Z0 rho maxIter returnHistory returnNIter) := by
  have h := runLoop_map (body := glBody eigh a) (body' := glBody eigh' { a with empCov := r.mat a.empCov }) (glMap r)
    id (fun _ => True) (fun _ _ _ => trivial) (fun it s _ => relabel_glBody r he he' a hS it s) maxIter
    (s := glInit Z0 rho) trivial
  have h0 : glMap r (glInit Z0 rho) = glInit (r.mat Z0) rho := by simp [glMap, glInit]
  rw [h0] at h
  unfold graphicalLasso
  simp only [h, List.map_id]
  split
  · split <;> rfl
  · rfl

/-! ### latent_graphical_lasso -/

theorem relabel_lglR {eigh eigh' : Eigh n} (he : IsEighOracle eigh) (he' : IsEighOracle eigh') {S : Matrix n n ℝ}
    (hS : S.IsSymm) (rho : ℝ) (K L U : Matrix n n ℝ) :
    lglR eigh' (r.mat S) rho (r.mat K) (r.mat L) (r.mat U) = r.mat (lglR eigh S rho K L U) := by
  unfold lglR
  simp only [← mat_sub, mat_symmetrize, ← mat_smul]
  refine mat_proxLogdet r he he' ?_ _
  rw [IsSymm, transpose_sub, transpose_smul, (symmetrize_symm _).eq, hS.eq]

theorem relabel_lglL {eigh eigh' : Eigh n} (he : IsEighOracle eigh) (he' : IsEighOracle eigh') (tau rho : ℝ)
    (K R U : Matrix n n ℝ) :
    lglL eigh' tau rho (r.mat K) (r.mat R) (r.mat U) = r.mat (lglL eigh tau rho K R U) := by
  unfold lglL
  simp only [← mat_sub, mat_symmetrize]
  exact mat_proxTrace r he he' (symmetrize_symm _) _

/-- The loop variables with relabelled matrices. -/
def lglMap (s : LGLState n) : LGLState n := ⟨r.mat s.K, r.mat s.L, r.mat s.U, r.mat s.Rold, s.rho⟩

theorem relabel_lglBody {eigh eigh' : Eigh n} (he : IsEighOracle eigh) (he' : IsEighOracle eigh') (a : LGLArgs n)
    (hS : a.empCov.IsSymm) (it : ℕ) (s : LGLState n) :
    lglBody eigh' { a with empCov := r.mat a.empCov } it (lglMap r s) =
      (lglMap r (lglBody eigh a it s).1, (lglBody eigh a it s).2.1, (lglBody eigh a it s).2.2) := by
  unfold lglBody lglK
  simp only [lglMap, relabel_lglR r he he' hS]
  simp only [← mat_add, mat_soft, relabel_lglL r he he', ← mat_sub, mat_froNorm, mat_det]
  split <;> simp

/-- Latent graphical lasso. -/
theorem C183_latent_graphical_lasso {eigh eigh' : Eigh n} (he : IsEighOracle eigh) (he' : IsEighOracle eigh')
    (a : LGLArgs n) (hS : a.empCov.IsSymm) (K0 : Matrix n n ℝ) (rho : ℝ) (maxIter : ℕ)
    (returnHistory returnNIter : Bool) :
    latentGraphicalLasso eigh' { a with empCov := r.mat a.empCov } (r.mat K0) rho maxIter returnHistory returnNIter =
      relabelLGL r (latentGraphicalLasso eigh a K0 rho maxIter returnHistory returnNIter) := by
  have h := runLoop_map (body := lglBody eigh a) (body' := lglBody eigh' { a with empCov := r.mat a.empCov })
    (lglMap r) id (fun _ => True) (fun _ _ _ => trivial) (fun it s _ => relabel_lglBody r he he' a hS it s) maxIter
    (s := lglInit K0 rho) trivial
  have h0 : lglMap r (lglInit K0 rho) = lglInit (r.mat K0) rho := by simp [lglMap, lglInit]
  rw [h0] at h
  unfold latentGraphicalLasso
  simp only [h, List.map_id]
  split
  · split <;> rfl
  · rfl

/-! ### infimal_convolution -/

/-- The loop variables with relabelled matrices. -/
def infMap (s : InfState n) : InfState n := ⟨r.mat s.K, r.mat s.L, r.mat s.U, r.mat s.Rold, s.rho⟩

theorem relabel_infL {eigh eigh' : Eigh n} (he : IsEighOracle eigh) (he' : IsEighOracle eigh') (tau rho : ℝ)
    (K R U : Matrix n n ℝ) :
    infL eigh' tau rho (r.mat K) (r.mat R) (r.mat U) = r.mat (infL eigh tau rho K R U) := by
  unfold infL
  simp only [← mat_sub, mat_symmetrize]
  exact mat_proxTrace r he he' (symmetrize_symm _) _

theorem relabel_infBody {eigh eigh' : Eigh n} (he : IsEighOracle eigh) (he' : IsEighOracle eigh') (a : InfArgs n)
    (it : ℕ) (s : InfState n) :
    infBody eigh' { a with S := r.mat a.S } it (infMap r s) =
      (infMap r (infBody eigh a it s).1, (infBody eigh a it s).2.1, (infBody eigh a it s).2.2) := by
  unfold infBody infR infK
  simp only [infMap]
  simp only [← mat_sub, mat_symmetrize, ← mat_smul, ← mat_add, mat_laplacian, mat_soft, relabel_infL r he he',
    mat_froNorm]
  split <;> simp

/-- Infimal convolution. -/
theorem C183_infimal_convolution {eigh eigh' : Eigh n} (he : IsEighOracle eigh) (he' : IsEighOracle eigh')
    (a : InfArgs n) (rho : ℝ) (maxIter : ℕ) (returnHistory returnNIter : Bool) :
    infimalConvolution eigh' { a with S := r.mat a.S } rho maxIter returnHistory returnNIter =
      relabelInf r (infimalConvolution eigh a rho maxIter returnHistory returnNIter) := by
  have h := runLoop_map (body := infBody eigh a) (body' := infBody eigh' { a with S := r.mat a.S })
    (infMap r) id (fun _ => True) (fun _ _ _ => trivial) (fun it s _ => relabel_infBody r he he' a it s) maxIter
    (s := ⟨0, 0, 0, 0, rho⟩) trivial
  have h0 : infMap r ⟨0, 0, 0, 0, rho⟩ = ⟨0, 0, 0, 0, rho⟩ := by simp [infMap]
  rw [h0] at h
  unfold infimalConvolution
  simp only [h, List.map_id]
  split
  · split <;> rfl
  · rfl

/-! ### The pair updates -/

/-- What is asked of a proximal operator of a penalty on differences of time points. -/
def ProxCommutes (prox : Matrix n n ℝ → ℝ → Matrix n n ℝ) : Prop :=
  ∀ M lam, prox (r.mat M) lam = r.mat (prox M lam)

theorem relabel_Z1 {prox : Matrix n n ℝ → ℝ → Matrix n n ℝ} (hp : ProxCommutes r prox) (w rho : ℝ)
    (A B : Matrix n n ℝ) : tglZ1 prox w rho (r.mat A) (r.mat B) = r.mat (tglZ1 prox w rho A B) := by
  unfold tglZ1
  rw [← mat_sub, hp]
  simp

theorem relabel_Z2 {prox : Matrix n n ℝ → ℝ → Matrix n n ℝ} (hp : ProxCommutes r prox) (w rho : ℝ)
    (A B : Matrix n n ℝ) : tglZ2 prox w rho (r.mat A) (r.mat B) = r.mat (tglZ2 prox w rho A B) := by
  unfold tglZ2
  rw [← mat_sub, hp]
  simp

theorem relabel_tglZ0 (al rho : ℝ) (K U : Matrix n n ℝ) :
    tglZ0 al rho (r.mat K) (r.mat U) = r.mat (tglZ0 al rho K U) := by
  unfold tglZ0
  rw [← mat_add, mat_symmetrize, mat_soft]

/-! ### kernel_time_graphical_lasso -/

section kernel

variable {k : ℕ} {E : Type*} [Fintype E]

/-- The arguments with relabelled covariances. -/
def ktArgsMap (a : KTArgs k E n) : KTArgs k E n := { a with empCov := fam r a.empCov }

/-- The loop variables with relabelled matrices. -/
def ktMap (s : KTState k E n) : KTState k E n :=
  ⟨fam r s.Z0, fam r s.ZL, fam r s.ZR, fam r s.U0, fam r s.UL, fam r s.UR, fam r s.Z0old, fam r s.ZLold, fam r s.ZRold,
    s.rho⟩

theorem scatter_sub_fam (f : E → Fin k) (X Y : E → Matrix n n ℝ) (t : Fin k) :
    scatter f (fun e => fam r X e - fam r Y e) t = r.mat (scatter f (fun e => X e - Y e) t) := by
  have : (fun e => fam r X e - fam r Y e) = fam r (fun e => X e - Y e) := by
    funext e; simp [fam]
  rw [this, fam_scatter]

theorem relabel_ktK {eigh eigh' : Eigh n} (he : IsEighOracle eigh) (he' : IsEighOracle eigh') (g : TimePairs k E)
    (a : KTArgs k E n) (hS : ∀ t, (a.empCov t).IsSymm) (s : KTState k E n) :
    ktK eigh' g (ktArgsMap r a) (ktMap r s) = fam r (ktK eigh g a s) := by
  funext t
  rw [fam_apply]
  unfold ktK
  simp only [ktArgsMap, ktMap, scatter_sub_fam]
  simp only [fam_apply, ← mat_sub, ← mat_add, ← mat_smul, mat_symmetrize]
  refine mat_proxLogdet r he he' ?_ _
  rw [IsSymm, transpose_add, transpose_smul, (symmetrize_symm _).eq, (hS t).eq]

theorem relabel_ktNext {eigh eigh' : Eigh n} (he : IsEighOracle eigh) (he' : IsEighOracle eigh') (g : TimePairs k E)
    (a : KTArgs k E n) (hS : ∀ t, (a.empCov t).IsSymm) (hp : ProxCommutes r a.prox) (s : KTState k E n) :
    ktNext eigh' g (ktArgsMap r a) (ktMap r s) = ktMap r (ktNext eigh g a s) := by
  unfold ktNext
  simp only [relabel_ktK r he he' g a hS]
  generalize ktK eigh g a s = K
  simp only [ktArgsMap, ktMap, fam_apply, ← mat_add, ← mat_sub, relabel_tglZ0, relabel_Z1 r hp, relabel_Z2 r hp]
  rfl

theorem relabel_ktObjective (a : KTArgs k E n) (hpsi : ∀ M, a.psi (r.mat M) = a.psi M) (K Z0 : Batch k n)
    (ZL ZR : E → Matrix n n ℝ) :
    ktObjectiveCode (ktArgsMap r a) (fam r K) (fam r Z0) (fam r ZL) (fam r ZR) = ktObjectiveCode a K Z0 ZL ZR := by
  unfold ktObjectiveCode
  simp only [ktArgsMap, fam_tglLoss, fam_apply, mat_l1Od, ← mat_sub, hpsi]

theorem relabel_ktDiagnose (g : TimePairs k E) (a : KTArgs k E n) (hpsi : ∀ M, a.psi (r.mat M) = a.psi M)
    (K : Batch k n) (s s' : KTState k E n) :
    ktDiagnose g (ktArgsMap r a) (fam r K) (ktMap r s) (ktMap r s') = ktDiagnose g a K s s' := by
  have hL : (fun e => fam r K (g.src e)) = fam r (fun e => K (g.src e)) := rfl
  have hR : (fun e => fam r K (g.dst e)) = fam r (fun e => K (g.dst e)) := rfl
  unfold ktDiagnose
  simp only [hL, hR]
  simp only [ktMap, relabel_ktObjective r a hpsi, fam_sub, fam_batchSq, fam_pairSq]
  rfl

theorem relabel_ktBody {eigh eigh' : Eigh n} (he : IsEighOracle eigh) (he' : IsEighOracle eigh') (g : TimePairs k E)
    (a : KTArgs k E n) (hS : ∀ t, (a.empCov t).IsSymm) (hp : ProxCommutes r a.prox)
    (hpsi : ∀ M, a.psi (r.mat M) = a.psi M) (it : ℕ) (s : KTState k E n) :
    ktBody eigh' g (ktArgsMap r a) it (ktMap r s) =
      (ktMap r (ktBody eigh g a it s).1, (ktBody eigh g a it s).2.1, (ktBody eigh g a it s).2.2) := by
  unfold ktBody
  simp only [relabel_ktNext r he he' g a hS hp, relabel_ktK r he he' g a hS, relabel_ktDiagnose r g a hpsi]
  generalize ktNext eigh g a s = s'
  generalize ktDiagnose g a (ktK eigh g a s) s s' = c
  have hresc : ∀ q, ktRescale q (ktMap r s') = ktMap r (ktRescale q s') := by
    intro q
    unfold ktRescale
    simp only [ktMap, fam_apply, ← mat_smul]
    rfl
  simp only [hresc]
  have e1 : (ktArgsMap r a).stopAt = a.stopAt := rfl
  have e2 : (ktArgsMap r a).stopWhen = a.stopWhen := rfl
  have e3 : (ktArgsMap r a).rhoOptions = a.rhoOptions := rfl
  have e4 : (ktMap r s).rho = s.rho := rfl
  rw [e1, e2, e3, e4]
  split <;> rfl

/-- Kernel time-varying graphical lasso. -/
theorem C183_kernel_time_graphical_lasso {eigh eigh' : Eigh n} (he : IsEighOracle eigh) (he' : IsEighOracle eigh')
    (a : KTArgs k Empty n) (hS : ∀ t, (a.empCov t).IsSymm) (hp : ∀ M lam, a.prox (r.mat M) lam = r.mat (a.prox M lam))
    (hpsi : ∀ M, a.psi (r.mat M) = a.psi M) (kernel : Option (Fin k → Fin k → ℝ)) (K0 : Batch k n) (rho : ℝ)
    (maxIter : ℕ) (returnHistory returnNIter : Bool) :
    kernelTimeGraphicalLasso eigh' { a with empCov := fun t => r.mat (a.empCov t) } kernel (fun t => r.mat (K0 t)) rho
        maxIter returnHistory returnNIter =
      relabelKT r (kernelTimeGraphicalLasso eigh a kernel K0 rho maxIter returnHistory returnNIter) := by
  have ea : ktArgsOf { a with empCov := fun t => r.mat (a.empCov t) } kernel = ktArgsMap r (ktArgsOf a kernel) := rfl
  have h := runLoop_map (body := ktBody eigh (allPairs k) (ktArgsOf a kernel))
    (body' := ktBody eigh' (allPairs k) (ktArgsMap r (ktArgsOf a kernel)))
    (ktMap r) id (fun _ => True) (fun _ _ _ => trivial)
    (fun it s _ => relabel_ktBody r he he' (allPairs k) (ktArgsOf a kernel) hS hp hpsi it s) maxIter
    (s := ktInit (allPairs k) K0 rho) trivial
  have h0 : ktMap r (ktInit (allPairs k) K0 rho) = ktInit (allPairs k) (fun t => r.mat (K0 t)) rho := by
    simp only [ktMap, ktInit, fam_zero]
    rfl
  rw [h0] at h
  have h1 : ktObjectiveCode (ktArgsMap r (ktArgsOf a kernel)) (fun t => r.mat (K0 t)) (fun t => r.mat (K0 t))
      (ktInit (allPairs k) (fun t => r.mat (K0 t)) rho).ZL (ktInit (allPairs k) (fun t => r.mat (K0 t)) rho).ZR =
      ktObjectiveCode (ktArgsOf a kernel) K0 K0 (ktInit (allPairs k) K0 rho).ZL (ktInit (allPairs k) K0 rho).ZR :=
    relabel_ktObjective r (ktArgsOf a kernel) hpsi K0 K0 _ _
  unfold kernelTimeGraphicalLasso
  rw [ea]
  simp only [h, h1, List.map_id]
  split
  · split <;> rfl
  · rfl

end kernel

/-! ### time_graphical_lasso -/

section chain

variable {T : ℕ}

/-- The arguments with relabelled covariances. -/
def tglArgsMap (a : TGLArgs T n) : TGLArgs T n := { a with empCov := fam r a.empCov }

/-- The loop variables with relabelled matrices. -/
def tglMap (s : TGLState T n) : TGLState T n :=
  ⟨fam r s.Z0, fam r s.Z1, fam r s.Z2, fam r s.U0, fam r s.U1, fam r s.U2, fam r s.Z0old, fam r s.Z1old, fam r s.Z2old,
    s.rho⟩

theorem padLast_fam (X Y : Batch T n) (t : Fin (T + 1)) :
    padLast (fun p => fam r X p - fam r Y p) t = r.mat (padLast (fun p => X p - Y p) t) := by
  unfold padLast
  refine Fin.lastCases ?_ (fun p => ?_) t
  · rw [Fin.snoc_last, Fin.snoc_last]; exact (mat_zero r).symm
  · rw [Fin.snoc_castSucc, Fin.snoc_castSucc]; simp

theorem padFirst_fam (X Y : Batch T n) (t : Fin (T + 1)) :
    padFirst (fun p => fam r X p - fam r Y p) t = r.mat (padFirst (fun p => X p - Y p) t) := by
  unfold padFirst
  refine Fin.cases ?_ (fun p => ?_) t
  · rw [Fin.cons_zero, Fin.cons_zero]; exact (mat_zero r).symm
  · rw [Fin.cons_succ, Fin.cons_succ]; simp

theorem relabel_tglK {eigh eigh' : Eigh n} (he : IsEighOracle eigh) (he' : IsEighOracle eigh')
    (a : TGLArgs T n) (hS : ∀ t, (a.empCov t).IsSymm) (s : TGLState T n) :
    tglK eigh' (tglArgsMap r a) (tglMap r s) = fam r (tglK eigh a s) := by
  funext t
  rw [fam_apply]
  unfold tglK
  simp only [tglArgsMap, tglMap, padLast_fam, padFirst_fam]
  simp only [fam_apply, ← mat_sub, ← mat_add, ← mat_smul, mat_symmetrize]
  refine mat_proxLogdet r he he' ?_ _
  rw [IsSymm, transpose_add, transpose_smul, (symmetrize_symm _).eq, (hS t).eq]

theorem init_fam (X : Batch (T + 1) n) : Verif.Model.init (fam r X) = fam r (Verif.Model.init X) := rfl

theorem tail_fam (X : Batch (T + 1) n) : Verif.Model.tail (fam r X) = fam r (Verif.Model.tail X) := rfl

theorem relabel_tglNext {eigh eigh' : Eigh n} (he : IsEighOracle eigh) (he' : IsEighOracle eigh')
    (a : TGLArgs T n) (hS : ∀ t, (a.empCov t).IsSymm) (hp : ProxCommutes r a.prox) (s : TGLState T n) :
    tglNext eigh' (tglArgsMap r a) (tglMap r s) = tglMap r (tglNext eigh a s) := by
  unfold tglNext
  simp only [relabel_tglK r he he' a hS, init_fam, tail_fam]
  generalize tglK eigh a s = K
  simp only [tglArgsMap, tglMap, fam_apply, ← mat_add, ← mat_sub, relabel_tglZ0, relabel_Z1 r hp, relabel_Z2 r hp]
  rfl

theorem relabel_tglObjective (a : TGLArgs T n) (hpsi : ∀ M, a.psi (r.mat M) = a.psi M) (K Z0 : Batch (T + 1) n)
    (Z1 Z2 : Batch T n) :
    tglObjectiveCode (tglArgsMap r a) (fam r K) (fam r Z0) (fam r Z1) (fam r Z2) = tglObjectiveCode a K Z0 Z1 Z2 := by
  unfold tglObjectiveCode
  simp only [tglArgsMap, fam_tglLoss, fam_apply, mat_l1Od, ← mat_sub, hpsi]

theorem relabel_tglDiagnose (a : TGLArgs T n) (hpsi : ∀ M, a.psi (r.mat M) = a.psi M) (K : Batch (T + 1) n)
    (s s' : TGLState T n) :
    tglDiagnose (tglArgsMap r a) (fam r K) (tglMap r s) (tglMap r s') = tglDiagnose a K s s' := by
  unfold tglDiagnose
  simp only [init_fam, tail_fam, tglMap, relabel_tglObjective r a hpsi, fam_sub, fam_batchSq]
  rfl

theorem relabel_tglBody {eigh eigh' : Eigh n} (he : IsEighOracle eigh) (he' : IsEighOracle eigh')
    (a : TGLArgs T n) (hS : ∀ t, (a.empCov t).IsSymm) (hp : ProxCommutes r a.prox)
    (hpsi : ∀ M, a.psi (r.mat M) = a.psi M) (it : ℕ) (s : TGLState T n) :
    tglBody eigh' (tglArgsMap r a) it (tglMap r s) =
      (tglMap r (tglBody eigh a it s).1, (tglBody eigh a it s).2.1, (tglBody eigh a it s).2.2) := by
  unfold tglBody
  simp only [relabel_tglNext r he he' a hS hp, relabel_tglK r he he' a hS, relabel_tglDiagnose r a hpsi]
  generalize tglNext eigh a s = s'
  generalize tglDiagnose a (tglK eigh a s) s s' = c
  have hresc : ∀ q, tglRescale q (tglMap r s') = tglMap r (tglRescale q s') := by
    intro q
    unfold tglRescale
    simp only [tglMap, fam_apply, ← mat_smul]
    rfl
  simp only [hresc]
  have e1 : (tglArgsMap r a).stopAt = a.stopAt := rfl
  have e2 : (tglArgsMap r a).stopWhen = a.stopWhen := rfl
  have e3 : (tglArgsMap r a).rhoOptions = a.rhoOptions := rfl
  have e4 : (tglMap r s).rho = s.rho := rfl
  rw [e1, e2, e3, e4]
  split <;> rfl

/-- Time-varying graphical lasso. -/
theorem C183_time_graphical_lasso {eigh eigh' : Eigh n} (he : IsEighOracle eigh) (he' : IsEighOracle eigh')
    (a : TGLArgs T n) (hS : ∀ t, (a.empCov t).IsSymm) (hp : ∀ M lam, a.prox (r.mat M) lam = r.mat (a.prox M lam))
    (hpsi : ∀ M, a.psi (r.mat M) = a.psi M) (K0 : Batch (T + 1) n) (rho : ℝ)
    (maxIter : ℕ) (returnHistory returnNIter : Bool) :
    timeGraphicalLasso eigh' { a with empCov := fun t => r.mat (a.empCov t) } (fun t => r.mat (K0 t)) rho
        maxIter returnHistory returnNIter =
      relabelTGL r (timeGraphicalLasso eigh a K0 rho maxIter returnHistory returnNIter) := by
  have ea : ({ a with empCov := fun t => r.mat (a.empCov t) } : TGLArgs T n) = tglArgsMap r a := rfl
  have h := runLoop_map (body := tglBody eigh a) (body' := tglBody eigh' (tglArgsMap r a))
    (tglMap r) id (fun _ => True) (fun _ _ _ => trivial)
    (fun it s _ => relabel_tglBody r he he' a hS hp hpsi it s) maxIter (s := tglInit K0 rho) trivial
  have h0 : tglMap r (tglInit K0 rho) = tglInit (fun t => r.mat (K0 t)) rho := by
    simp only [tglMap, tglInit, fam_zero]
    rfl
  rw [h0] at h
  have h1 : tglObjectiveCode (tglArgsMap r a) (fun t => r.mat (K0 t)) (fun t => r.mat (K0 t))
      (Verif.Model.init fun t => r.mat (K0 t)) (Verif.Model.tail fun t => r.mat (K0 t)) =
      tglObjectiveCode a K0 K0 (Verif.Model.init K0) (Verif.Model.tail K0) :=
    relabel_tglObjective r a hpsi K0 K0 _ _
  rw [ea]
  unfold timeGraphicalLasso
  simp only [h, h1, List.map_id]
  split
  · split <;> rfl
  · rfl

end chain

/-! ### The latent time-varying solvers -/

section latent

variable {k : ℕ} {E : Type*} [Fintype E]

/-- The arguments with relabelled covariances. -/
def ltArgsMap (a : LTArgs k E n) : LTArgs k E n := { a with empCov := fam r a.empCov }

/-- The loop variables with relabelled matrices. -/
def ltMap (s : LTState k E n) : LTState k E n :=
  ⟨fam r s.Z0, fam r s.ZL, fam r s.ZR, fam r s.W0, fam r s.WL, fam r s.WR, fam r s.X0, fam r s.XL, fam r s.XR,
    fam r s.UL, fam r s.UR, fam r s.Rold, fam r s.ZLold, fam r s.ZRold, fam r s.WLold, fam r s.WRold, s.rho⟩

theorem relabel_ltZ0 (g : TimePairs k E) (a : LTArgs k E n) (s : LTState k E n) (R : Batch k n) :
    ltZ0 g (ltArgsMap r a) (ltMap r s) (fam r R) = fam r (ltZ0 g a s R) := by
  funext t
  rw [fam_apply]
  unfold ltZ0
  simp only [ltArgsMap, ltMap, scatter_sub_fam]
  simp only [fam_apply, ← mat_add, ← mat_smul, mat_soft]

theorem relabel_ltW0 {eigh eigh' : Eigh n} (he : IsEighOracle eigh) (he' : IsEighOracle eigh') (g : TimePairs k E)
    (a : LTArgs k E n) (s : LTState k E n) (R Z0 : Batch k n) :
    ltW0 eigh' g (ltArgsMap r a) (ltMap r s) (fam r R) (fam r Z0) = fam r (ltW0 eigh g a s R Z0) := by
  funext t
  rw [fam_apply]
  unfold ltW0
  simp only [ltArgsMap, ltMap, scatter_sub_fam]
  simp only [fam_apply, ← mat_sub, ← mat_add, ← mat_smul, mat_symmetrize]
  exact mat_proxTrace r he he' (symmetrize_symm _) _

theorem relabel_ltNext {eigh eigh' : Eigh n} (he : IsEighOracle eigh) (he' : IsEighOracle eigh')
    {rU rU' : ℝ → Batch k n → Batch k n} (hU : ∀ rho A, rU' rho (fam r A) = fam r (rU rho A)) (g : TimePairs k E)
    (a : LTArgs k E n) (hp : ProxCommutes r a.proxPsi) (hq : ProxCommutes r a.proxPhi) (s : LTState k E n) :
    ltNext eigh' rU' g (ltArgsMap r a) (ltMap r s) = ltMap r (ltNext eigh rU g a s) := by
  have hR : rU' (ltMap r s).rho (fun t => (ltMap r s).Z0 t - (ltMap r s).W0 t - (ltMap r s).X0 t) =
      fam r (rU s.rho fun t => s.Z0 t - s.W0 t - s.X0 t) := by
    rw [← hU]
    congr 1
    funext t
    simp only [ltMap, fam_apply, ← mat_sub]
  unfold ltNext
  simp only [hR]
  generalize (rU s.rho fun t => s.Z0 t - s.W0 t - s.X0 t) = R
  simp only [relabel_ltZ0]
  generalize ltZ0 g a s R = Z0
  simp only [relabel_ltW0 r he he']
  generalize ltW0 eigh g a s R Z0 = W0
  simp only [ltArgsMap, ltMap, fam_apply, ← mat_add, ← mat_sub, relabel_Z1 r hp, relabel_Z2 r hp, relabel_Z1 r hq,
    relabel_Z2 r hq]
  rfl

theorem relabel_ltDiagnose (g : TimePairs k E) (a : LTArgs k E n) (s s' : LTState k E n) :
    ltDiagnose g (ltArgsMap r a) (ltMap r s) (ltMap r s') = ltDiagnose g a s s' := by
  have hg : ∀ (f : E → Fin k) (X : Batch k n), (fun e => fam r X (f e)) = fam r (fun e => X (f e)) := fun _ _ => rfl
  unfold ltDiagnose
  simp only [ltMap, hg, fam_sub, fam_add, fam_batchSq, fam_pairSq]
  rfl

theorem relabel_ltBody {eigh eigh' : Eigh n} (he : IsEighOracle eigh) (he' : IsEighOracle eigh')
    {rU rU' : ℝ → Batch k n → Batch k n} (hU : ∀ rho A, rU' rho (fam r A) = fam r (rU rho A)) (g : TimePairs k E)
    (a : LTArgs k E n) (hp : ProxCommutes r a.proxPsi) (hq : ProxCommutes r a.proxPhi) (it : ℕ) (s : LTState k E n) :
    ltBody eigh' rU' g (ltArgsMap r a) it (ltMap r s) =
      (ltMap r (ltBody eigh rU g a it s).1, (ltBody eigh rU g a it s).2.1, (ltBody eigh rU g a it s).2.2) := by
  unfold ltBody
  simp only [relabel_ltNext r he he' hU g a hp hq, relabel_ltDiagnose r g a]
  generalize ltNext eigh rU g a s = s'
  generalize ltDiagnose g a s s' = c
  have hresc : ∀ q, ltRescale q (ltMap r s') = ltMap r (ltRescale q s') := by
    intro q
    unfold ltRescale
    simp only [ltMap, fam_apply, ← mat_smul]
    rfl
  simp only [hresc]
  have e3 : (ltArgsMap r a).rhoOptions = a.rhoOptions := rfl
  have e4 : (ltMap r s).rho = s.rho := rfl
  rw [e3, e4]
  split <;> rfl

theorem relabel_ltRun {eigh eigh' : Eigh n} (he : IsEighOracle eigh) (he' : IsEighOracle eigh')
    {rU rU' : ℝ → Batch k n → Batch k n} (hU : ∀ rho A, rU' rho (fam r A) = fam r (rU rho A)) (g : TimePairs k E)
    (a : LTArgs k E n) (hp : ProxCommutes r a.proxPsi) (hq : ProxCommutes r a.proxPhi) (K0 : Batch k n) (rho : ℝ)
    (maxIter : ℕ) (returnHistory returnNIter : Bool) :
    ltRun eigh' rU' g (ltArgsMap r a) (fam r K0) rho maxIter returnHistory returnNIter =
      relabelLT r (ltRun eigh rU g a K0 rho maxIter returnHistory returnNIter) := by
  have h := runLoop_map (body := ltBody eigh rU g a) (body' := ltBody eigh' rU' g (ltArgsMap r a))
    (ltMap r) id (fun _ => True) (fun _ _ _ => trivial)
    (fun it s _ => relabel_ltBody r he he' hU g a hp hq it s) maxIter (s := ltInit g K0 rho) trivial
  have h0 : ltMap r (ltInit g K0 rho) = ltInit g (fam r K0) rho := by
    simp only [ltMap, ltInit, fam_zero]
    rfl
  rw [h0] at h
  unfold ltRun
  simp only [h, List.map_id]
  generalize runLoop (ltBody eigh rU g a) maxIter (ltInit g K0 rho) = q
  obtain ⟨st, cs, b, li⟩ := q
  cases returnNIter <;> cases li <;> rfl

theorem relabel_ltLogdetR {eigh eigh' : Eigh n} (he : IsEighOracle eigh) (he' : IsEighOracle eigh')
    (a : LTArgs k E n) (hS : ∀ t, (a.empCov t).IsSymm) (rho : ℝ) (A : Batch k n) :
    ltLogdetR eigh' (ltArgsMap r a) rho (fam r A) = fam r (ltLogdetR eigh a rho A) := by
  funext t
  rw [fam_apply]
  unfold ltLogdetR
  simp only [ltArgsMap, fam_apply, mat_symmetrize, ← mat_smul, ← mat_add]
  refine mat_proxLogdet r he he' ?_ _
  rw [IsSymm, transpose_add, transpose_smul, (symmetrize_symm _).eq, (hS t).eq]

theorem relabel_ltSquareR (a : LTArgs k E n) (rho : ℝ) (A : Batch k n) :
    ltSquareR (ltArgsMap r a) rho (fam r A) = fam r (ltSquareR a rho A) := by
  funext t
  rw [fam_apply]
  unfold ltSquareR
  simp only [ltArgsMap, fam_apply, ← mat_smul, ← mat_add]

/-- Latent time-varying graphical lasso. -/
theorem C183_latent_time_graphical_lasso {T : ℕ} {eigh eigh' : Eigh n} (he : IsEighOracle eigh)
    (he' : IsEighOracle eigh') (o : LTOptions (T + 1) n) (hS : ∀ t, (o.empCov t).IsSymm)
    (hp : ∀ M lam, o.proxPsi (r.mat M) lam = r.mat (o.proxPsi M lam))
    (hq : ∀ M lam, o.proxPhi (r.mat M) lam = r.mat (o.proxPhi M lam)) (beta eta : ℝ) (K0 : Batch (T + 1) n) (rho : ℝ)
    (maxIter : ℕ) (returnHistory returnNIter : Bool) :
    latentTimeGraphicalLasso eigh' { o with empCov := fun t => r.mat (o.empCov t) } beta eta (fun t => r.mat (K0 t)) rho
        maxIter returnHistory returnNIter =
      relabelLT r (latentTimeGraphicalLasso eigh o beta eta K0 rho maxIter returnHistory returnNIter) :=
  relabel_ltRun r he he' (relabel_ltLogdetR r he he' (chainArgs o beta eta) hS) (chainPairs T) (chainArgs o beta eta) hp
    hq K0 rho maxIter returnHistory returnNIter

/-- Kernel latent time-varying graphical lasso. -/
theorem C183_kernel_latent_time_graphical_lasso {eigh eigh' : Eigh n} (he : IsEighOracle eigh)
    (he' : IsEighOracle eigh') (o : LTOptions k n) (hS : ∀ t, (o.empCov t).IsSymm)
    (hp : ∀ M lam, o.proxPsi (r.mat M) lam = r.mat (o.proxPsi M lam))
    (hq : ∀ M lam, o.proxPhi (r.mat M) lam = r.mat (o.proxPhi M lam)) (kpsi kphi : Option (Fin k → Fin k → ℝ))
    (K0 : Batch k n) (rho : ℝ) (maxIter : ℕ) (returnHistory returnNIter : Bool) :
    kernelLatentTimeGraphicalLasso eigh' { o with empCov := fun t => r.mat (o.empCov t) } kpsi kphi
        (fun t => r.mat (K0 t)) rho maxIter returnHistory returnNIter =
      relabelLT r (kernelLatentTimeGraphicalLasso eigh o kpsi kphi K0 rho maxIter returnHistory returnNIter) :=
  relabel_ltRun r he he' (relabel_ltLogdetR r he he' (kernelArgs o kpsi kphi) hS) (allPairs k) (kernelArgs o kpsi kphi)
    hp hq K0 rho maxIter returnHistory returnNIter

/-- Latent time-varying matrix decomposition. -/
theorem C183_matrix_decomposition {T : ℕ} {eigh eigh' : Eigh n} (he : IsEighOracle eigh)
    (he' : IsEighOracle eigh') (o : LTOptions (T + 1) n)
    (hp : ∀ M lam, o.proxPsi (r.mat M) lam = r.mat (o.proxPsi M lam))
    (hq : ∀ M lam, o.proxPhi (r.mat M) lam = r.mat (o.proxPhi M lam)) (beta eta rho : ℝ)
    (maxIter : ℕ) (returnHistory returnNIter : Bool) :
    latentTimeMatrixDecomposition eigh' { o with empCov := fun t => r.mat (o.empCov t) } beta eta rho
        maxIter returnHistory returnNIter =
      relabelLT r (latentTimeMatrixDecomposition eigh o beta eta rho maxIter returnHistory returnNIter) := by
  have h := relabel_ltRun r he he' (relabel_ltSquareR r (chainArgs o beta eta)) (chainPairs T) (chainArgs o beta eta) hp
    hq 0 rho maxIter returnHistory returnNIter
  rw [fam_zero] at h
  exact h

end latent

/-! ### From the data: the covariance and the initial precision -/

/-- The empirical covariance of relabelled data is the relabelled covariance. -/
theorem C183_covariance {N : ℕ} (X : Fin N → n → ℝ) (R : Finset (Fin N)) (centered : Bool) :
    empCov (fun i => r.vec (X i)) R centered = r.mat (empCov X R centered) := by
  have hm : ∀ a, rowMean (fun i => r.vec (X i)) R a = r.sign a * rowMean X R (r.perm a) := by
    intro a
    simp only [rowMean, Relabel.vec, ← Finset.mul_sum]
    ring
  ext a b
  cases centered
  · simp only [empCov, Bool.false_eq_true, if_false, Matrix.of_apply, Relabel.mat, hm]
    rw [← mul_div_assoc, Finset.mul_sum]
    congr 1
    refine Finset.sum_congr rfl fun i _ => ?_
    simp only [Relabel.vec]; ring
  · simp only [empCov, if_true, Matrix.of_apply, Relabel.mat]
    rw [← mul_div_assoc, Finset.mul_sum]
    congr 1
    refine Finset.sum_congr rfl fun i _ => ?_
    simp only [Relabel.vec]; ring

open Classical in
/-- The default initial value (`init="empirical"`) of the relabelled covariance is the relabelled initial value, when the
cutoff of `pinvh` is the same number for both matrices (scipy computes it from the eigenvalues). -/
theorem C183_initial_precision {eigh eigh' : Eigh n} (he : IsEighOracle eigh) (he' : IsEighOracle eigh')
    (cutoff : Matrix n n ℝ → ℝ) (hc : ∀ A, cutoff (r.mat A) = cutoff A) {S : Matrix n n ℝ} (hS : S.IsSymm) :
    initPrecision eigh' cutoff [.mat (r.mat S)] 0 .empirical =
      (initPrecision eigh cutoff [.mat S] 0 .empirical).map fun p => (p.1.map (Arr.map r.mat), p.2) := by
  have hd : fillDiagonal ((0.95 : ℝ) • r.mat S) (getDiagonal (r.mat S)) =
      r.mat (fillDiagonal ((0.95 : ℝ) • S) (getDiagonal S)) := by
    ext i j
    unfold fillDiagonal getDiagonal
    simp only [Relabel.mat, EmbeddingLike.apply_eq_iff_eq, Matrix.smul_apply, smul_eq_mul]
    by_cases h : i = j
    · subst h; simp
    · simp only [h, if_false]; ring
  have hsym : (fillDiagonal ((0.95 : ℝ) • S) (getDiagonal S)).IsSymm := by
    ext i j
    show (if j = i then S j j else 0.95 * S j i) = if i = j then S i i else 0.95 * S i j
    by_cases h : i = j
    · subst h; simp
    · have h' : ¬ j = i := fun hh => h hh.symm
      simp only [h, h', if_false, hS.apply i j]
  have hpi : pinvh eigh' cutoff (r.mat (fillDiagonal ((0.95 : ℝ) • S) (getDiagonal S))) =
      r.mat (pinvh eigh cutoff (fillDiagonal ((0.95 : ℝ) • S) (getDiagonal S))) := by
    unfold pinvh
    rw [hc]
    exact mat_spectral r he he' (fun x => if |x| > cutoff _ then x⁻¹ else 0) hsym
  simp only [initPrecision, Heap.alloc, Heap.modify, Arr.map, Arr.zip, List.cons_append, List.nil_append,
    List.length_cons, List.length_nil, List.getElem?_cons_zero, List.getElem?_cons_succ, List.set_cons_succ,
    List.set_cons_zero, List.map_cons, List.map_nil, Option.map_some, hd, hpi, zero_add]

/-! ### The penalties on differences of time points -/

/-- The relabelling that undoes another one. -/
def Relabel.inv : Relabel n where
  perm := r.perm.symm
  sign := fun i => r.sign (r.perm.symm i)
  sign_sq := fun _ => r.sign_sq _

theorem mat_inv (A : Matrix n n ℝ) : r.mat ((Relabel.inv r).mat A) = A := by
  ext i j
  simp only [Relabel.mat, Relabel.inv, Equiv.symm_apply_apply]
  calc r.sign i * r.sign j * (r.sign i * r.sign j * A i j)
      = (r.sign i * r.sign i) * (r.sign j * r.sign j) * A i j := by ring
    _ = A i j := by rw [r.sign_sq, r.sign_sq]; ring

/-- The hypothesis on the penalty operators in the theorems above holds for every proximal operator of a penalty whose
value does not depend on the labelling: all that is used is that the operator returns the minimiser. -/
theorem C183_prox (pen : Matrix n n ℝ → ℝ) (hpen : ∀ M, pen (r.mat M) = pen M) (prox : Matrix n n ℝ → ℝ → Matrix n n ℝ)
    (lam : ℝ) (hprox : ∀ A, UniqueMin Set.univ (proxObjMat pen lam A) (prox A lam)) (M : Matrix n n ℝ) :
    prox (r.mat M) lam = r.mat (prox M lam) := by
  have hobj : ∀ X, proxObjMat pen lam (r.mat M) (r.mat X) = proxObjMat pen lam M X := by
    intro X
    unfold proxObjMat frobSq
    rw [hpen, ← mat_sub, mat_sumSq]
  refine ((hprox (r.mat M)).eq_of_isMin ⟨Set.mem_univ _, fun Y _ => ?_⟩).symm
  rw [← mat_inv r Y, hobj, hobj]
  exact (hprox M).isMin.2 _ (Set.mem_univ _)

/-- `psi="l1"`. -/
theorem C183_psi_l1 : (∀ M lam, softThresholdingMat (r.mat M) lam = r.mat (softThresholdingMat M lam)) ∧
    ∀ M, l1Norm (r.mat M) = l1Norm M :=
  ⟨mat_soft r, mat_l1 r⟩

/-- `psi="laplacian"` (the squared Frobenius norm). -/
theorem C183_psi_laplacian : (∀ M lam, proxLaplacianMat (r.mat M) lam = r.mat (proxLaplacianMat M lam)) ∧
    ∀ M : Matrix n n ℝ, ∑ i, ∑ j, r.mat M i j ^ 2 = ∑ i, ∑ j, M i j ^ 2 :=
  ⟨mat_laplacian r, mat_sumSq r⟩

/-- A relabelling that is not the identity: the two variables are exchanged and one of them changes its sign. -/
def swapTwo : Relabel (Fin 2) where
  perm := Equiv.swap 0 1
  sign := ![1, -1]
  sign_sq := by intro i; fin_cases i <;> norm_num

example : swapTwo.mat !![2, 1; 1, 5] = !![5, -1; -1, 2] := by
  ext i j
  fin_cases i <;> fin_cases j <;> simp [swapTwo, Relabel.mat]

/-- The hypotheses of `C183_time_graphical_lasso` are met by a covariance that the relabelling changes, the eigensolvers
exist, and the penalty is the one of `psi="l1"`. -/
example : ∃ eigh : Eigh (Fin 2), IsEighOracle eigh ∧
    ∀ (K0 : Batch 2 (Fin 2)) (rho : ℝ) (m : ℕ),
      timeGraphicalLasso (T := 1) eigh
          ⟨fun _ => !![5, -1; -1, 2], fun _ => 3, 1, 1, l1Norm, softThresholdingMat, 1, 1, none, 1, true, {}⟩
          (fun t => swapTwo.mat (K0 t)) rho m true true =
        relabelTGL swapTwo (timeGraphicalLasso (T := 1) eigh
          ⟨fun _ => !![2, 1; 1, 5], fun _ => 3, 1, 1, l1Norm, softThresholdingMat, 1, 1, none, 1, true, {}⟩
          K0 rho m true true) := by
  obtain ⟨eigh, he⟩ := exists_eighOracle (n := Fin 2)
  refine ⟨eigh, he, fun K0 rho m => ?_⟩
  have h := C183_time_graphical_lasso swapTwo he he
    (⟨fun _ => !![2, 1; 1, 5], fun _ => 3, 1, 1, l1Norm, softThresholdingMat, 1, 1, none, 1, true, {}⟩ : TGLArgs 1 (Fin 2))
    (fun _ => by
      ext i j
      fin_cases i <;> fin_cases j <;> simp) (mat_soft swapTwo) (mat_l1 swapTwo) K0 rho m true true
  have e : swapTwo.mat !![2, 1; 1, 5] = !![5, -1; -1, 2] := by
    ext i j
    fin_cases i <;> fin_cases j <;> simp [swapTwo, Relabel.mat]
  simp only [e] at h
  exact h

end Verif.Props
