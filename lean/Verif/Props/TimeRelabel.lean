import Verif.Lemmas.TimeRelabel
import Verif.Props.LatentOne
import Verif.Model.Estimators

/-! C184: reading the time points backwards (or, for the kernel methods, in any other order) gives the same networks in that
order. -/

namespace Verif.Props

open Matrix Verif.Model Verif.Spec Verif.Lemmas

set_option autoImplicit false
set_option linter.unusedSectionVars false

variable {n : Type*} [Fintype n] [DecidableEq n]

/-! ### What the user sees of a call on renumbered time points -/

/-- The same outcome with renumbered time points. -/
def renumberTGL {T : ℕ} (tau : Equiv.Perm (Fin (T + 1))) : TGLReturn T n → TGLReturn T n
  | .unbound => .unbound
  | .ok Z h i w => .ok (fun t => Z (tau t)) h i w

/-- The same for the kernel version. -/
def renumberKT {k : ℕ} (tau : Equiv.Perm (Fin k)) : KTReturn k n → KTReturn k n
  | .unbound => .unbound
  | .ok Z h i w => .ok (fun t => Z (tau t)) h i w

/-- The same for the latent solvers. -/
def renumberLT {k : ℕ} (tau : Equiv.Perm (Fin k)) : LTReturn k n → LTReturn k n
  | .unbound => .unbound
  | .ok K L h i w => .ok (fun t => K (tau t)) (fun t => L (tau t)) h i w

/-! ### Kernel and latent solvers, for every renumbering that respects the pairs -/

section pairs

variable {k : ℕ} {E : Type*} [Fintype E] {g : TimePairs k E} (r : TimeSym g)

/-- The arguments in the new order. -/
def ktArgsTime (a : KTArgs k E n) : KTArgs k E n :=
  { a with empCov := r.bat a.empCov, nSamples := r.bat a.nSamples, weight := fun e => a.weight (r.pi e) }

/-- The loop variables in the new order. -/
def ktTime (s : KTState k E n) : KTState k E n :=
  ⟨r.bat s.Z0, r.left s.ZL s.ZR, r.right s.ZL s.ZR, r.bat s.U0, r.left s.UL s.UR, r.right s.UL s.UR, r.bat s.Z0old,
    r.left s.ZLold s.ZRold, r.right s.ZLold s.ZRold, s.rho⟩

theorem time_ktK {eigh : Eigh n} (a : KTArgs k E n) (s : KTState k E n) :
    ktK eigh g (ktArgsTime r a) (ktTime r s) = r.bat (ktK eigh g a s) := by
  funext t
  have h := ts_scatter r (fun e => s.ZL e - s.UL e) (fun e => s.ZR e - s.UR e) t
  have e1 : (fun e => (ktTime r s).ZL e - (ktTime r s).UL e) =
      r.left (fun e => s.ZL e - s.UL e) (fun e => s.ZR e - s.UR e) := funext fun e => ts_left_sub' r _ _ _ _ e
  have e2 : (fun e => (ktTime r s).ZR e - (ktTime r s).UR e) =
      r.right (fun e => s.ZL e - s.UL e) (fun e => s.ZR e - s.UR e) := funext fun e => ts_right_sub' r _ _ _ _ e
  unfold ktK
  rw [e1, e2, add_assoc, h]
  simp only [← add_assoc]
  rfl

theorem time_ktNext {eigh : Eigh n} (a : KTArgs k E n) (hp : OddProx a.prox) (s : KTState k E n) :
    ktNext eigh g (ktArgsTime r a) (ktTime r s) = ktTime r (ktNext eigh g a s) := by
  unfold ktNext
  simp only [time_ktK]
  generalize ktK eigh g a s = K
  have eL : ∀ e, r.bat K (g.src e) = r.left (fun e => K (g.src e)) (fun e => K (g.dst e)) e :=
    fun e => congrFun (ts_left_ends r K) e
  have eR : ∀ e, r.bat K (g.dst e) = r.right (fun e => K (g.src e)) (fun e => K (g.dst e)) e :=
    fun e => congrFun (ts_right_ends r K) e
  have h1 := ts_pairs1 r hp a.weight s.rho (fun e => K (g.src e) + s.UL e) (fun e => K (g.dst e) + s.UR e)
  have h2 := ts_pairs2 r hp a.weight s.rho (fun e => K (g.src e) + s.UL e) (fun e => K (g.dst e) + s.UR e)
  have p1 := fun e => congrFun h1 e
  have p2 := fun e => congrFun h2 e
  simp only [ktTime, ktArgsTime, eL, eR, ts_left_add, ts_right_add, p1, p2, ts_left_sub', ts_right_sub']
  rfl

theorem time_ktObjective (a : KTArgs k E n) (hpsi : ∀ M, a.psi (-M) = a.psi M) (K Z0 : Batch k n)
    (ZL ZR : E → Matrix n n ℝ) :
    ktObjectiveCode (ktArgsTime r a) (r.bat K) (r.bat Z0) (r.left ZL ZR) (r.right ZL ZR) =
      ktObjectiveCode a K Z0 ZL ZR := by
  unfold ktObjectiveCode
  simp only [ktArgsTime, ts_loss, ts_psi r hpsi]
  rw [show ∑ t, l1OdNorm (r.bat Z0 t) = ∑ t, l1OdNorm (Z0 t) from Equiv.sum_comp r.tau fun t => l1OdNorm (Z0 t)]

theorem time_ktDiagnose (a : KTArgs k E n) (hpsi : ∀ M, a.psi (-M) = a.psi M)
    (K : Batch k n) (s s' : KTState k E n) :
    ktDiagnose g (ktArgsTime r a) (r.bat K) (ktTime r s) (ktTime r s') = ktDiagnose g a K s s' := by
  unfold ktDiagnose
  simp only [ts_left_ends, ts_right_ends]
  simp only [ktTime, time_ktObjective r a hpsi, ts_bat_sub, ts_left_sub, ts_right_sub, ts_batchSq, ts_pairSq]
  rfl

theorem time_ktBody {eigh : Eigh n} (a : KTArgs k E n) (hp : OddProx a.prox)
    (hpsi : ∀ M, a.psi (-M) = a.psi M) (it : ℕ) (s : KTState k E n) :
    ktBody eigh g (ktArgsTime r a) it (ktTime r s) =
      (ktTime r (ktBody eigh g a it s).1, (ktBody eigh g a it s).2.1, (ktBody eigh g a it s).2.2) := by
  unfold ktBody
  simp only [time_ktNext r a hp, time_ktK, time_ktDiagnose r a hpsi]
  generalize ktNext eigh g a s = s'
  generalize ktDiagnose g a (ktK eigh g a s) s s' = c
  have hresc : ∀ q, ktRescale q (ktTime r s') = ktTime r (ktRescale q s') := by
    intro q
    unfold ktRescale
    simp only [ktTime, ts_left_smul, ts_right_smul]
    rfl
  simp only [hresc]
  have e1 : (ktArgsTime r a).stopAt = a.stopAt := rfl
  have e2 : (ktArgsTime r a).stopWhen = a.stopWhen := rfl
  have e3 : (ktArgsTime r a).rhoOptions = a.rhoOptions := rfl
  have e4 : (ktTime r s).rho = s.rho := rfl
  rw [e1, e2, e3, e4]
  split <;> rfl

/-- The arguments of the latent solvers in the new order. -/
def ltArgsTime (a : LTArgs k E n) : LTArgs k E n :=
  { a with empCov := r.bat a.empCov, nSamples := r.bat a.nSamples, wPsi := fun e => a.wPsi (r.pi e),
           wPhi := fun e => a.wPhi (r.pi e), divisor := r.bat a.divisor }

/-- The loop variables of the latent solvers in the new order. -/
def ltTime (s : LTState k E n) : LTState k E n :=
  ⟨r.bat s.Z0, r.left s.ZL s.ZR, r.right s.ZL s.ZR, r.bat s.W0, r.left s.WL s.WR, r.right s.WL s.WR, r.bat s.X0,
    r.left s.XL s.XR, r.right s.XL s.XR, r.left s.UL s.UR, r.right s.UL s.UR, r.bat s.Rold, r.left s.ZLold s.ZRold,
    r.right s.ZLold s.ZRold, r.left s.WLold s.WRold, r.right s.WLold s.WRold, s.rho⟩

theorem time_ltZ0 (a : LTArgs k E n) (s : LTState k E n) (R : Batch k n) :
    ltZ0 g (ltArgsTime r a) (ltTime r s) (r.bat R) = r.bat (ltZ0 g a s R) := by
  funext t
  have h := ts_scatter r (fun e => s.ZL e - s.XL e) (fun e => s.ZR e - s.XR e) t
  have e1 : (fun e => (ltTime r s).ZL e - (ltTime r s).XL e) =
      r.left (fun e => s.ZL e - s.XL e) (fun e => s.ZR e - s.XR e) := funext fun e => ts_left_sub' r _ _ _ _ e
  have e2 : (fun e => (ltTime r s).ZR e - (ltTime r s).XR e) =
      r.right (fun e => s.ZL e - s.XL e) (fun e => s.ZR e - s.XR e) := funext fun e => ts_right_sub' r _ _ _ _ e
  unfold ltZ0
  rw [e1, e2, add_assoc, h]
  simp only [← add_assoc]
  rfl

theorem time_ltW0 {eigh : Eigh n} (a : LTArgs k E n) (s : LTState k E n) (R Z0 : Batch k n) :
    ltW0 eigh g (ltArgsTime r a) (ltTime r s) (r.bat R) (r.bat Z0) = r.bat (ltW0 eigh g a s R Z0) := by
  funext t
  have h := ts_scatter r (fun e => s.WL e - s.UL e) (fun e => s.WR e - s.UR e) t
  have e1 : (fun e => (ltTime r s).WL e - (ltTime r s).UL e) =
      r.left (fun e => s.WL e - s.UL e) (fun e => s.WR e - s.UR e) := funext fun e => ts_left_sub' r _ _ _ _ e
  have e2 : (fun e => (ltTime r s).WR e - (ltTime r s).UR e) =
      r.right (fun e => s.WL e - s.UL e) (fun e => s.WR e - s.UR e) := funext fun e => ts_right_sub' r _ _ _ _ e
  unfold ltW0
  rw [e1, e2, add_assoc, h]
  simp only [← add_assoc]
  rfl

theorem time_ltNext {eigh : Eigh n} {rU rU' : ℝ → Batch k n → Batch k n}
    (hU : ∀ rho A, rU' rho (r.bat A) = r.bat (rU rho A)) (a : LTArgs k E n) (hp : OddProx a.proxPsi)
    (hq : OddProx a.proxPhi) (s : LTState k E n) :
    ltNext eigh rU' g (ltArgsTime r a) (ltTime r s) = ltTime r (ltNext eigh rU g a s) := by
  have hR : rU' (ltTime r s).rho (fun t => (ltTime r s).Z0 t - (ltTime r s).W0 t - (ltTime r s).X0 t) =
      r.bat (rU s.rho fun t => s.Z0 t - s.W0 t - s.X0 t) := by
    rw [← hU]
    rfl
  unfold ltNext
  simp only [hR]
  generalize (rU s.rho fun t => s.Z0 t - s.W0 t - s.X0 t) = R
  simp only [time_ltZ0]
  generalize ltZ0 g a s R = Z0
  simp only [time_ltW0]
  generalize ltW0 eigh g a s R Z0 = W0
  have eL : ∀ (K : Batch k n) e, r.bat K (g.src e) = r.left (fun e => K (g.src e)) (fun e => K (g.dst e)) e :=
    fun K e => congrFun (ts_left_ends r K) e
  have eR : ∀ (K : Batch k n) e, r.bat K (g.dst e) = r.right (fun e => K (g.src e)) (fun e => K (g.dst e)) e :=
    fun K e => congrFun (ts_right_ends r K) e
  have p1 := fun e => congrFun (ts_pairs1 r hp a.wPsi s.rho (fun e => Z0 (g.src e) + s.XL e)
    (fun e => Z0 (g.dst e) + s.XR e)) e
  have p2 := fun e => congrFun (ts_pairs2 r hp a.wPsi s.rho (fun e => Z0 (g.src e) + s.XL e)
    (fun e => Z0 (g.dst e) + s.XR e)) e
  have q1 := fun e => congrFun (ts_pairs1 r hq a.wPhi s.rho (fun e => W0 (g.src e) + s.UL e)
    (fun e => W0 (g.dst e) + s.UR e)) e
  have q2 := fun e => congrFun (ts_pairs2 r hq a.wPhi s.rho (fun e => W0 (g.src e) + s.UL e)
    (fun e => W0 (g.dst e) + s.UR e)) e
  simp only [ltTime, ltArgsTime, eL, eR, ts_left_add, ts_right_add, p1, p2, q1, q2, ts_left_sub', ts_right_sub']
  rfl

theorem ts_pairSq_add (x : ℝ) (XL XR : E → Matrix n n ℝ) :
    x + pairSq (r.left XL XR) + pairSq (r.right XL XR) = x + pairSq XL + pairSq XR := by
  rw [add_assoc, ts_pairSq, add_assoc]

theorem time_ltDiagnose (a : LTArgs k E n) (s s' : LTState k E n) :
    ltDiagnose g (ltArgsTime r a) (ltTime r s) (ltTime r s') = ltDiagnose g a s s' := by
  unfold ltDiagnose
  simp only [ltTime, ts_left_ends, ts_right_ends]
  simp only [ts_bat_sub, ts_bat_add, ts_left_sub, ts_right_sub, ts_batchSq, ts_pairSq_add]
  rfl

theorem time_ltBody {eigh : Eigh n} {rU rU' : ℝ → Batch k n → Batch k n}
    (hU : ∀ rho A, rU' rho (r.bat A) = r.bat (rU rho A)) (a : LTArgs k E n) (hp : OddProx a.proxPsi)
    (hq : OddProx a.proxPhi) (it : ℕ) (s : LTState k E n) :
    ltBody eigh rU' g (ltArgsTime r a) it (ltTime r s) =
      (ltTime r (ltBody eigh rU g a it s).1, (ltBody eigh rU g a it s).2.1, (ltBody eigh rU g a it s).2.2) := by
  unfold ltBody
  simp only [time_ltNext r hU a hp hq, time_ltDiagnose]
  generalize ltNext eigh rU g a s = s'
  generalize ltDiagnose g a s s' = c
  have hresc : ∀ q, ltRescale q (ltTime r s') = ltTime r (ltRescale q s') := by
    intro q
    unfold ltRescale
    simp only [ltTime, ts_left_smul, ts_right_smul]
    rfl
  simp only [hresc]
  have e3 : (ltArgsTime r a).rhoOptions = a.rhoOptions := rfl
  have e4 : (ltTime r s).rho = s.rho := rfl
  rw [e3, e4]
  split <;> rfl

theorem time_ltRun {eigh : Eigh n} {rU rU' : ℝ → Batch k n → Batch k n}
    (hU : ∀ rho A, rU' rho (r.bat A) = r.bat (rU rho A)) (a : LTArgs k E n) (hp : OddProx a.proxPsi)
    (hq : OddProx a.proxPhi) (K0 : Batch k n) (rho : ℝ) (maxIter : ℕ) (returnHistory returnNIter : Bool) :
    ltRun eigh rU' g (ltArgsTime r a) (r.bat K0) rho maxIter returnHistory returnNIter =
      renumberLT r.tau (ltRun eigh rU g a K0 rho maxIter returnHistory returnNIter) := by
  have h := runLoop_map (body := ltBody eigh rU g a) (body' := ltBody eigh rU' g (ltArgsTime r a))
    (ltTime r) id (fun _ => True) (fun _ _ _ => trivial)
    (fun it s _ => time_ltBody r hU a hp hq it s) maxIter (s := ltInit g K0 rho) trivial
  have h0 : ltTime r (ltInit g K0 rho) = ltInit g (r.bat K0) rho := by
    simp only [ltTime, ltInit, ts_left_zero, ts_right_zero, ← ts_left_ends, ← ts_right_ends]
    rfl
  rw [h0] at h
  unfold ltRun
  simp only [h, List.map_id]
  generalize runLoop (ltBody eigh rU g a) maxIter (ltInit g K0 rho) = q
  obtain ⟨st, cs, b, li⟩ := q
  cases returnNIter <;> cases li <;> rfl

theorem time_ltLogdetR {eigh : Eigh n} (a : LTArgs k E n) (rho : ℝ) (A : Batch k n) :
    ltLogdetR eigh (ltArgsTime r a) rho (r.bat A) = r.bat (ltLogdetR eigh a rho A) := rfl

theorem time_ltSquareR (a : LTArgs k E n) (rho : ℝ) (A : Batch k n) :
    ltSquareR (ltArgsTime r a) rho (r.bat A) = r.bat (ltSquareR a rho A) := rfl

end pairs

/-! ### All pairs of times, any renumbering -/

/-- The pair with the given ends. -/
def sortPair {k : ℕ} (a b : Fin k) (h : a ≠ b) : PairIdx k :=
  if hlt : a < b then ⟨(a, b), hlt⟩ else ⟨(b, a), lt_of_le_of_ne (not_lt.mp hlt) h.symm⟩

theorem sortPair_symm {k : ℕ} (a b : Fin k) (h : a ≠ b) : sortPair b a h.symm = sortPair a b h := by
  unfold sortPair
  rcases lt_or_gt_of_ne h with hab | hab
  · simp [hab, not_lt.mpr hab.le]
  · have hba : b < a := hab
    simp [hba, not_lt.mpr hba.le]

theorem sortPair_self {k : ℕ} (e : PairIdx k) (h : e.1.1 ≠ e.1.2) : sortPair e.1.1 e.1.2 h = e := by
  unfold sortPair
  rw [dif_pos e.2]

/-- Where a pair of times goes. -/
def movePair {k : ℕ} (tau : Equiv.Perm (Fin k)) (e : PairIdx k) : PairIdx k :=
  sortPair (tau e.1.1) (tau e.1.2) (fun h => absurd (tau.injective h) (ne_of_lt e.2))

theorem movePair_inv {k : ℕ} (tau sig : Equiv.Perm (Fin k)) (h : ∀ t, sig (tau t) = t) (e : PairIdx k) :
    movePair sig (movePair tau e) = e := by
  by_cases hlt : tau e.1.1 < tau e.1.2
  · have e1 : movePair tau e = ⟨(tau e.1.1, tau e.1.2), hlt⟩ := by
      unfold movePair sortPair; rw [dif_pos hlt]
    rw [e1]
    unfold movePair
    simp only [h]
    exact sortPair_self e _
  · have hne : tau e.1.2 ≠ tau e.1.1 := fun hh => absurd (tau.injective hh).symm (ne_of_lt e.2)
    have e1 : movePair tau e = ⟨(tau e.1.2, tau e.1.1), lt_of_le_of_ne (not_lt.mp hlt) hne⟩ := by
      unfold movePair sortPair; rw [dif_neg hlt]
    rw [e1]
    unfold movePair
    simp only [h]
    rw [sortPair_symm e.1.1 e.1.2 (ne_of_lt e.2)]
    exact sortPair_self e _

/-- Every renumbering of the times respects the set of all pairs. -/
def allSym {k : ℕ} (tau : Equiv.Perm (Fin k)) : TimeSym (allPairs k) where
  tau := tau
  pi := ⟨movePair tau, movePair tau.symm, movePair_inv tau tau.symm tau.symm_apply_apply,
    movePair_inv tau.symm tau tau.apply_symm_apply⟩
  flip := fun e => decide (¬ tau e.1.1 < tau e.1.2)
  src_eq := by
    intro e
    show tau e.1.1 = if decide (¬ tau e.1.1 < tau e.1.2) then (movePair tau e).1.2 else (movePair tau e).1.1
    unfold movePair sortPair
    by_cases h : tau e.1.1 < tau e.1.2 <;> simp [h]
  dst_eq := by
    intro e
    show tau e.1.2 = if decide (¬ tau e.1.1 < tau e.1.2) then (movePair tau e).1.1 else (movePair tau e).1.2
    unfold movePair sortPair
    by_cases h : tau e.1.1 < tau e.1.2 <;> simp [h]

theorem kernelWeight_move {k : ℕ} (tau : Equiv.Perm (Fin k)) (kernel : Option (Fin k → Fin k → ℝ))
    (hsym : ∀ K, kernel = some K → ∀ s t, K s t = K t s) (e : PairIdx k) :
    kernelWeight (kernel.map fun K s t => K (tau s) (tau t)) e = kernelWeight kernel (movePair tau e) := by
  cases kernel with
  | none =>
    show (if e.1.1 = e.1.2 then (1 : ℝ) else 0) = if (movePair tau e).1.1 = (movePair tau e).1.2 then 1 else 0
    rw [if_neg (ne_of_lt e.2), if_neg (ne_of_lt (movePair tau e).2)]
  | some K =>
    show K (tau e.1.1) (tau e.1.2) = K (movePair tau e).1.1 (movePair tau e).1.2
    unfold movePair sortPair
    split
    · rfl
    · exact hsym K rfl _ _

/-- Kernel time-varying graphical lasso, any renumbering of the times, with a symmetric kernel that is renumbered too. -/
theorem C184_kernel_time_graphical_lasso {k : ℕ} (tau : Equiv.Perm (Fin k)) (eigh : Eigh n) (a : KTArgs k Empty n)
    (hp : ∀ M lam, a.prox (-M) lam = -a.prox M lam) (hpsi : ∀ M, a.psi (-M) = a.psi M)
    (kernel : Option (Fin k → Fin k → ℝ)) (hsym : ∀ K, kernel = some K → ∀ s t, K s t = K t s) (K0 : Batch k n)
    (rho : ℝ) (maxIter : ℕ) (returnHistory returnNIter : Bool) :
    kernelTimeGraphicalLasso eigh
        { a with empCov := fun t => a.empCov (tau t), nSamples := fun t => a.nSamples (tau t) }
        (kernel.map fun K s t => K (tau s) (tau t)) (fun t => K0 (tau t)) rho maxIter returnHistory returnNIter =
      renumberKT tau (kernelTimeGraphicalLasso eigh a kernel K0 rho maxIter returnHistory returnNIter) := by
  have ea : ktArgsOf { a with empCov := fun t => a.empCov (tau t), nSamples := fun t => a.nSamples (tau t) }
      (kernel.map fun K s t => K (tau s) (tau t)) = ktArgsTime (allSym tau) (ktArgsOf a kernel) := by
    unfold ktArgsOf ktArgsTime
    rw [show kernelWeight (kernel.map fun K s t => K (tau s) (tau t)) =
      fun e => kernelWeight kernel (movePair tau e) from funext fun e => kernelWeight_move tau kernel hsym e]
    rfl
  have h := runLoop_map (body := ktBody eigh (allPairs k) (ktArgsOf a kernel))
    (body' := ktBody eigh (allPairs k) (ktArgsTime (allSym tau) (ktArgsOf a kernel)))
    (ktTime (allSym tau)) id (fun _ => True) (fun _ _ _ => trivial)
    (fun it s _ => time_ktBody (allSym tau) (ktArgsOf a kernel) hp hpsi it s) maxIter
    (s := ktInit (allPairs k) K0 rho) trivial
  have h0 : ktTime (allSym tau) (ktInit (allPairs k) K0 rho) = ktInit (allPairs k) (fun t => K0 (tau t)) rho := by
    simp only [ktTime, ktInit, ts_left_zero, ts_right_zero, ← ts_left_ends, ← ts_right_ends]
    rfl
  have h1 : ktObjectiveCode (ktArgsTime (allSym tau) (ktArgsOf a kernel)) (fun t => K0 (tau t)) (fun t => K0 (tau t))
      (ktInit (allPairs k) (fun t => K0 (tau t)) rho).ZL (ktInit (allPairs k) (fun t => K0 (tau t)) rho).ZR =
      ktObjectiveCode (ktArgsOf a kernel) K0 K0 (ktInit (allPairs k) K0 rho).ZL (ktInit (allPairs k) K0 rho).ZR := by
    rw [← h0]
    exact time_ktObjective (allSym tau) (ktArgsOf a kernel) hpsi K0 K0 _ _
  rw [h0] at h
  unfold kernelTimeGraphicalLasso
  rw [ea]
  simp only [h, h1, List.map_id]
  generalize runLoop (ktBody eigh (allPairs k) (ktArgsOf a kernel)) maxIter (ktInit (allPairs k) K0 rho) = q
  obtain ⟨st, cs, b, li⟩ := q
  cases returnNIter <;> cases li <;> rfl

/-- Kernel latent time-varying graphical lasso. -/
theorem C184_kernel_latent_time_graphical_lasso {k : ℕ} (tau : Equiv.Perm (Fin k)) (eigh : Eigh n) (o : LTOptions k n)
    (hp : ∀ M lam, o.proxPsi (-M) lam = -o.proxPsi M lam) (hq : ∀ M lam, o.proxPhi (-M) lam = -o.proxPhi M lam)
    (kpsi kphi : Option (Fin k → Fin k → ℝ)) (hsym : ∀ K, kpsi = some K → ∀ s t, K s t = K t s)
    (hsym' : ∀ K, kphi = some K → ∀ s t, K s t = K t s) (K0 : Batch k n)
    (rho : ℝ) (maxIter : ℕ) (returnHistory returnNIter : Bool) :
    kernelLatentTimeGraphicalLasso eigh
        { o with empCov := fun t => o.empCov (tau t), nSamples := fun t => o.nSamples (tau t) }
        (kpsi.map fun K s t => K (tau s) (tau t)) (kphi.map fun K s t => K (tau s) (tau t)) (fun t => K0 (tau t)) rho
        maxIter returnHistory returnNIter =
      renumberLT tau (kernelLatentTimeGraphicalLasso eigh o kpsi kphi K0 rho maxIter returnHistory returnNIter) := by
  have ea : kernelArgs { o with empCov := fun t => o.empCov (tau t), nSamples := fun t => o.nSamples (tau t) }
      (kpsi.map fun K s t => K (tau s) (tau t)) (kphi.map fun K s t => K (tau s) (tau t)) =
      ltArgsTime (allSym tau) (kernelArgs o kpsi kphi) := by
    unfold kernelArgs ltArgsTime
    rw [show kernelWeight (kpsi.map fun K s t => K (tau s) (tau t)) =
        fun e => kernelWeight kpsi (movePair tau e) from funext fun e => kernelWeight_move tau kpsi hsym e,
      show kernelWeight (kphi.map fun K s t => K (tau s) (tau t)) =
        fun e => kernelWeight kphi (movePair tau e) from funext fun e => kernelWeight_move tau kphi hsym' e]
    rfl
  unfold kernelLatentTimeGraphicalLasso
  rw [ea]
  exact time_ltRun (allSym tau) (time_ltLogdetR (allSym tau) (kernelArgs o kpsi kphi)) (kernelArgs o kpsi kphi) hp hq K0
    rho maxIter returnHistory returnNIter

/-! ### Consecutive times, read backwards -/

/-- The time axis read backwards. -/
def chainRev (T : ℕ) : TimeSym (chainPairs T) where
  tau := Fin.revPerm
  pi := Fin.revPerm
  flip := fun _ => true
  src_eq := by intro e; simp [chainPairs, Fin.rev_castSucc]
  dst_eq := by intro e; simp [chainPairs, Fin.rev_succ]

theorem tglDivisor_rev {T : ℕ} (t : Fin (T + 1)) : tglDivisor (Fin.rev t) = tglDivisor t := by
  unfold tglDivisor
  have h1 : Fin.rev t = 0 ↔ t = Fin.last T := by
    rw [← Fin.rev_last, Fin.rev_inj]
  have h2 : Fin.rev t = Fin.last T ↔ t = 0 := by
    rw [← Fin.rev_zero, Fin.rev_inj]
  simp only [h1, h2]
  ring

/-- Latent time-varying graphical lasso. -/
theorem C184_latent_time_graphical_lasso {T : ℕ} (eigh : Eigh n) (o : LTOptions (T + 1) n)
    (hp : ∀ M lam, o.proxPsi (-M) lam = -o.proxPsi M lam) (hq : ∀ M lam, o.proxPhi (-M) lam = -o.proxPhi M lam)
    (beta eta : ℝ) (K0 : Batch (T + 1) n) (rho : ℝ) (maxIter : ℕ) (returnHistory returnNIter : Bool) :
    latentTimeGraphicalLasso eigh
        { o with empCov := fun t => o.empCov t.rev, nSamples := fun t => o.nSamples t.rev } beta eta
        (fun t => K0 t.rev) rho maxIter returnHistory returnNIter =
      renumberLT Fin.revPerm (latentTimeGraphicalLasso eigh o beta eta K0 rho maxIter returnHistory returnNIter) := by
  have ea : chainArgs { o with empCov := fun t => o.empCov t.rev, nSamples := fun t => o.nSamples t.rev } beta eta =
      ltArgsTime (chainRev T) (chainArgs o beta eta) := by
    unfold chainArgs ltArgsTime
    rw [show (chainRev T).bat (tglDivisor : Fin (T + 1) → ℝ) = tglDivisor from funext fun t => tglDivisor_rev t]
    rfl
  unfold latentTimeGraphicalLasso
  rw [ea]
  exact time_ltRun (chainRev T) (time_ltLogdetR (chainRev T) (chainArgs o beta eta)) (chainArgs o beta eta) hp hq K0
    rho maxIter returnHistory returnNIter

/-- Latent time-varying matrix decomposition. -/
theorem C184_matrix_decomposition {T : ℕ} (eigh : Eigh n) (o : LTOptions (T + 1) n)
    (hp : ∀ M lam, o.proxPsi (-M) lam = -o.proxPsi M lam) (hq : ∀ M lam, o.proxPhi (-M) lam = -o.proxPhi M lam)
    (beta eta rho : ℝ) (maxIter : ℕ) (returnHistory returnNIter : Bool) :
    latentTimeMatrixDecomposition eigh
        { o with empCov := fun t => o.empCov t.rev, nSamples := fun t => o.nSamples t.rev } beta eta rho maxIter
        returnHistory returnNIter =
      renumberLT Fin.revPerm (latentTimeMatrixDecomposition eigh o beta eta rho maxIter returnHistory returnNIter) := by
  have ea : chainArgs { o with empCov := fun t => o.empCov t.rev, nSamples := fun t => o.nSamples t.rev } beta eta =
      ltArgsTime (chainRev T) (chainArgs o beta eta) := by
    unfold chainArgs ltArgsTime
    rw [show (chainRev T).bat (tglDivisor : Fin (T + 1) → ℝ) = tglDivisor from funext fun t => tglDivisor_rev t]
    rfl
  unfold latentTimeMatrixDecomposition
  rw [ea]
  exact time_ltRun (chainRev T) (time_ltSquareR (chainRev T) (chainArgs o beta eta)) (chainArgs o beta eta) hp hq 0
    rho maxIter returnHistory returnNIter

/-! ### time_graphical_lasso -/

section chain

variable {T : ℕ}

/-- The arguments with the time axis reversed. -/
def tglArgsRev (a : TGLArgs T n) : TGLArgs T n :=
  { a with empCov := fun t => a.empCov t.rev, nSamples := fun t => a.nSamples t.rev }

/-- A batch read backwards. -/
def revB {j : ℕ} (X : Batch j n) : Batch j n := fun t => X t.rev

/-- The loop variables with the time axis reversed: the two sides of every pair change places. -/
def tglRev (s : TGLState T n) : TGLState T n :=
  ⟨revB s.Z0, revB s.Z2, revB s.Z1, revB s.U0, revB s.U2, revB s.U1, revB s.Z0old, revB s.Z2old, revB s.Z1old, s.rho⟩

theorem padLast_rev (X : Batch T n) (t : Fin (T + 1)) : padLast (revB X) t = padFirst X t.rev := by
  unfold padLast padFirst
  refine Fin.lastCases ?_ (fun p => ?_) t
  · rw [Fin.snoc_last, Fin.rev_last, Fin.cons_zero]
  · rw [Fin.snoc_castSucc, Fin.rev_castSucc, Fin.cons_succ]; rfl

theorem padFirst_rev (X : Batch T n) (t : Fin (T + 1)) : padFirst (revB X) t = padLast X t.rev := by
  unfold padLast padFirst
  refine Fin.cases ?_ (fun p => ?_) t
  · rw [Fin.cons_zero, Fin.rev_zero, Fin.snoc_last]
  · rw [Fin.cons_succ, Fin.rev_succ, Fin.snoc_castSucc]; rfl

theorem init_rev (X : Batch (T + 1) n) : Verif.Model.init (revB X) = revB (Verif.Model.tail X) := by
  funext p
  show X (Fin.rev p.castSucc) = X (Fin.succ p.rev)
  rw [Fin.rev_castSucc]

theorem tail_rev (X : Batch (T + 1) n) : Verif.Model.tail (revB X) = revB (Verif.Model.init X) := by
  funext p
  show X (Fin.rev p.succ) = X (Fin.castSucc p.rev)
  rw [Fin.rev_succ]

theorem rev_tglK {eigh : Eigh n} (a : TGLArgs T n) (s : TGLState T n) :
    tglK eigh (tglArgsRev a) (tglRev s) = revB (tglK eigh a s) := by
  funext t
  have e1 : padLast (fun p => (tglRev s).Z1 p - (tglRev s).U1 p) t = padFirst (fun p => s.Z2 p - s.U2 p) t.rev :=
    padLast_rev (fun p => s.Z2 p - s.U2 p) t
  have e2 : padFirst (fun p => (tglRev s).Z2 p - (tglRev s).U2 p) t = padLast (fun p => s.Z1 p - s.U1 p) t.rev :=
    padFirst_rev (fun p => s.Z1 p - s.U1 p) t
  show tglK eigh (tglArgsRev a) (tglRev s) t = tglK eigh a s t.rev
  unfold tglK
  rw [e1, e2, tglDivisor_rev, add_assoc, add_comm (padFirst _ _), ← add_assoc]
  rfl

theorem rev_tglNext {eigh : Eigh n} (a : TGLArgs T n) (hp : OddProx a.prox) (s : TGLState T n) :
    tglNext eigh (tglArgsRev a) (tglRev s) = tglRev (tglNext eigh a s) := by
  unfold tglNext
  simp only [rev_tglK, init_rev, tail_rev]
  generalize tglK eigh a s = K
  have h1 : ∀ p : Fin T, tglZ1 a.prox a.beta s.rho (Verif.Model.tail K p + s.U2 p) (Verif.Model.init K p + s.U1 p) =
      tglZ2 a.prox a.beta s.rho (Verif.Model.init K p + s.U1 p) (Verif.Model.tail K p + s.U2 p) :=
    fun p => ts_Z1_swap hp _ _ _ _
  have h2 : ∀ p : Fin T, tglZ2 a.prox a.beta s.rho (Verif.Model.tail K p + s.U2 p) (Verif.Model.init K p + s.U1 p) =
      tglZ1 a.prox a.beta s.rho (Verif.Model.init K p + s.U1 p) (Verif.Model.tail K p + s.U2 p) :=
    fun p => ts_Z2_swap hp _ _ _ _
  simp only [tglArgsRev, tglRev, revB, h1, h2]
  rfl

theorem batchSq_rev {j : ℕ} (X : Batch j n) : batchSq (revB X) = batchSq X :=
  Equiv.sum_comp Fin.revPerm fun t => ∑ i, ∑ j, X t i j ^ 2

theorem rev_sub {j : ℕ} (X Y : Batch j n) : revB X - revB Y = revB (X - Y) := rfl

theorem rev_tglObjective (a : TGLArgs T n) (hpsi : ∀ M, a.psi (-M) = a.psi M) (K Z0 : Batch (T + 1) n)
    (Z1 Z2 : Batch T n) :
    tglObjectiveCode (tglArgsRev a) (revB K) (revB Z0) (revB Z2) (revB Z1) = tglObjectiveCode a K Z0 Z1 Z2 := by
  unfold tglObjectiveCode
  have h1 : tglLoss (tglArgsRev a).empCov (revB K) (tglArgsRev a).nSamples = tglLoss a.empCov K a.nSamples :=
    ts_loss (chainRev T) a.empCov K a.nSamples
  have h2 : ∑ t, l1OdNorm (revB Z0 t) = ∑ t, l1OdNorm (Z0 t) := Equiv.sum_comp Fin.revPerm fun t => l1OdNorm (Z0 t)
  have h3 : ∑ p, a.psi (revB Z1 p - revB Z2 p) = ∑ p, a.psi (Z2 p - Z1 p) := by
    rw [← Equiv.sum_comp Fin.revPerm fun p => a.psi (Z2 p - Z1 p)]
    refine Finset.sum_congr rfl fun p _ => ?_
    rw [← hpsi, neg_sub]
    rfl
  rw [h1, h2]
  show XF.add _ (.fin (a.beta * ∑ p, a.psi (revB Z1 p - revB Z2 p))) = _
  rw [h3]
  rfl

theorem rev_tglDiagnose (a : TGLArgs T n) (hpsi : ∀ M, a.psi (-M) = a.psi M) (K : Batch (T + 1) n)
    (s s' : TGLState T n) :
    tglDiagnose (tglArgsRev a) (revB K) (tglRev s) (tglRev s') = tglDiagnose a K s s' := by
  unfold tglDiagnose
  simp only [init_rev, tail_rev, tglRev, rev_tglObjective a hpsi, rev_sub, batchSq_rev]
  have c : ∀ x y z : ℝ, x + y + z = x + z + y := fun x y z => by ring
  rw [c (batchSq (K - s'.Z0)), c (batchSq (s'.Z0 - s.Z0old)), c (batchSq s'.Z0), c (batchSq K), c (batchSq s'.U0)]
  rfl

theorem rev_tglBody {eigh : Eigh n} (a : TGLArgs T n) (hp : OddProx a.prox)
    (hpsi : ∀ M, a.psi (-M) = a.psi M) (it : ℕ) (s : TGLState T n) :
    tglBody eigh (tglArgsRev a) it (tglRev s) =
      (tglRev (tglBody eigh a it s).1, (tglBody eigh a it s).2.1, (tglBody eigh a it s).2.2) := by
  unfold tglBody
  simp only [rev_tglNext a hp, rev_tglK, rev_tglDiagnose a hpsi]
  generalize tglNext eigh a s = s'
  generalize tglDiagnose a (tglK eigh a s) s s' = c
  have hresc : ∀ q, tglRescale q (tglRev s') = tglRev (tglRescale q s') := fun q => rfl
  simp only [hresc]
  have e1 : (tglArgsRev a).stopAt = a.stopAt := rfl
  have e2 : (tglArgsRev a).stopWhen = a.stopWhen := rfl
  have e3 : (tglArgsRev a).rhoOptions = a.rhoOptions := rfl
  have e4 : (tglRev s).rho = s.rho := rfl
  rw [e1, e2, e3, e4]
  split <;> rfl

/-- Time-varying graphical lasso. -/
theorem C184_time_graphical_lasso (eigh : Eigh n) (a : TGLArgs T n) (hp : ∀ M lam, a.prox (-M) lam = -a.prox M lam)
    (hpsi : ∀ M, a.psi (-M) = a.psi M) (K0 : Batch (T + 1) n) (rho : ℝ)
    (maxIter : ℕ) (returnHistory returnNIter : Bool) :
    timeGraphicalLasso eigh { a with empCov := fun t => a.empCov t.rev, nSamples := fun t => a.nSamples t.rev }
        (fun t => K0 t.rev) rho maxIter returnHistory returnNIter =
      renumberTGL Fin.revPerm (timeGraphicalLasso eigh a K0 rho maxIter returnHistory returnNIter) := by
  have ea : ({ a with empCov := fun t => a.empCov t.rev, nSamples := fun t => a.nSamples t.rev } : TGLArgs T n) =
    tglArgsRev a := rfl
  have h := runLoop_map (body := tglBody eigh a) (body' := tglBody eigh (tglArgsRev a))
    tglRev id (fun _ => True) (fun _ _ _ => trivial)
    (fun it s _ => rev_tglBody a hp hpsi it s) maxIter (s := tglInit K0 rho) trivial
  have h0 : tglRev (tglInit K0 rho) = tglInit (fun t => K0 t.rev) rho := by
    show tglRev (tglInit K0 rho) = tglInit (revB K0) rho
    simp only [tglRev, tglInit, init_rev, tail_rev]
    rfl
  rw [h0] at h
  have h1 : tglObjectiveCode (tglArgsRev a) (fun t => K0 t.rev) (fun t => K0 t.rev)
      (Verif.Model.init fun t => K0 t.rev) (Verif.Model.tail fun t => K0 t.rev) =
      tglObjectiveCode a K0 K0 (Verif.Model.init K0) (Verif.Model.tail K0) := by
    have := rev_tglObjective a hpsi K0 K0 (Verif.Model.init K0) (Verif.Model.tail K0)
    rw [← init_rev, ← tail_rev] at this
    exact this
  rw [ea]
  unfold timeGraphicalLasso
  simp only [h, h1, List.map_id]
  generalize runLoop (tglBody eigh a) maxIter (tglInit K0 rho) = q
  obtain ⟨st, cs, b, li⟩ := q
  cases returnNIter <;> cases li <;> rfl

end chain

/-- The hypotheses on the penalty hold for `psi="l1"`. -/
theorem C184_psi_l1 : (∀ (M : Matrix n n ℝ) lam, softThresholdingMat (-M) lam = -softThresholdingMat M lam) ∧
    ∀ M : Matrix n n ℝ, l1Norm (-M) = l1Norm M := by
  refine ⟨fun M lam => ?_, fun M => ?_⟩
  · ext i j; exact softScalar_neg' (M i j) lam
  · simp [l1Norm]

/-- The hypotheses on the penalty hold for `psi="laplacian"`. -/
theorem C184_psi_laplacian : (∀ (M : Matrix n n ℝ) lam, proxLaplacianMat (-M) lam = -proxLaplacianMat M lam) ∧
    ∀ M : Matrix n n ℝ, ∑ i, ∑ j, (-M) i j ^ 2 = ∑ i, ∑ j, M i j ^ 2 := by
  refine ⟨fun M lam => ?_, fun M => ?_⟩
  · ext i j; exact neg_div _ _
  · simp

/-- A renumbering of three times that is not a reversal, with a kernel that is not constant: the hypotheses of
`C184_kernel_time_graphical_lasso` are met. -/
example (eigh : Eigh (Fin 2)) (S : Batch 3 (Fin 2)) (rho : ℝ) (m : ℕ) :
    kernelTimeGraphicalLasso eigh
        ⟨fun t => S (Equiv.swap 0 1 t), fun _ => 3, 1, Empty.elim, l1Norm, softThresholdingMat, 1, 1, none, 1, true, {}⟩
        (some fun s t => |((Equiv.swap (0 : Fin 3) 1 s : Fin 3) : ℝ) - ((Equiv.swap (0 : Fin 3) 1 t : Fin 3) : ℝ)|)
        (fun t => S (Equiv.swap 0 1 t)) rho m true true =
      renumberKT (Equiv.swap 0 1) (kernelTimeGraphicalLasso eigh
        ⟨S, fun _ => 3, 1, Empty.elim, l1Norm, softThresholdingMat, 1, 1, none, 1, true, {}⟩
        (some fun s t => |((s : Fin 3) : ℝ) - ((t : Fin 3) : ℝ)|) S rho m true true) :=
  C184_kernel_time_graphical_lasso (Equiv.swap 0 1) eigh
    ⟨S, fun _ => 3, 1, Empty.elim, l1Norm, softThresholdingMat, 1, 1, none, 1, true, {}⟩ C184_psi_l1.1 C184_psi_l1.2
    (some fun s t => |((s : Fin 3) : ℝ) - ((t : Fin 3) : ℝ)|)
    (by rintro K hK s t; cases hK; exact abs_sub_comm _ _) S rho m true true

end Verif.Props
