import Verif.Model.Temporal
import Verif.Lemmas.Relabel
import Mathlib.Data.List.Perm.Basic
import Mathlib.Data.Fintype.EquivFin
import Mathlib.Tactic.Abel

/-! How the building blocks of the time-varying solvers react to a renumbering of the time points. -/

namespace Verif.Lemmas

open Matrix Verif.Model

set_option autoImplicit false
set_option linter.unusedSectionVars false

variable {n : Type*} [Fintype n] [DecidableEq n]

/-! ### Sums of extended values -/

theorem XF_add_comm (a b : XF) : XF.add a b = XF.add b a := by
  cases a <;> cases b <;> simp [XF.add, add_comm]

theorem XF_add_assoc (a b c : XF) : XF.add (XF.add a b) c = XF.add a (XF.add b c) := by
  cases a <;> cases b <;> cases c <;> simp [XF.add, add_assoc]

/-- The order of the summands does not matter, special values included. -/
theorem XF_sum_perm {k : ℕ} (tau : Equiv.Perm (Fin k)) (f : Fin k → XF) : XF.sum (fun t => f (tau t)) = XF.sum f := by
  unfold XF.sum
  have hp : ((List.finRange k).map tau).Perm (List.finRange k) := by
    rw [List.perm_ext_iff_of_nodup ((List.nodup_finRange k).map tau.injective) (List.nodup_finRange k)]
    intro a
    simp only [List.mem_map, List.mem_finRange, true_and, iff_true]
    exact ⟨tau.symm a, tau.apply_symm_apply a⟩
  have : RightCommutative (fun (acc : XF) (j : Fin k) => XF.add acc (f j)) :=
    ⟨fun a b c => by
      show XF.add (XF.add a (f b)) (f c) = XF.add (XF.add a (f c)) (f b)
      rw [XF_add_assoc, XF_add_assoc, XF_add_comm (f b)]⟩
  have h := List.Perm.foldl_eq (f := fun (acc : XF) (j : Fin k) => XF.add acc (f j)) hp (.fin 0)
  rw [List.foldl_map] at h
  exact h

/-! ### Renumbering the time points of a graph of pairs -/

/-- New time `t` is old time `tau t`; the new pair `e` is the old pair `pi e`, possibly listed in the opposite order. -/
structure TimeSym {k : ℕ} {E : Type*} (g : TimePairs k E) where
  tau : Equiv.Perm (Fin k)
  pi : Equiv.Perm E
  flip : E → Bool
  src_eq : ∀ e, tau (g.src e) = if flip e then g.dst (pi e) else g.src (pi e)
  dst_eq : ∀ e, tau (g.dst e) = if flip e then g.src (pi e) else g.dst (pi e)

variable {k : ℕ} {E : Type*} [Fintype E] {g : TimePairs k E} (r : TimeSym g)

namespace TimeSym

/-- A batch in the new order. -/
def bat {α : Type*} (X : Fin k → α) : Fin k → α := fun t => X (r.tau t)

/-- The left ends of the new pairs. -/
def left {α : Type*} (XL XR : E → α) : E → α := fun e => if r.flip e then XR (r.pi e) else XL (r.pi e)

/-- The right ends of the new pairs. -/
def right {α : Type*} (XL XR : E → α) : E → α := fun e => if r.flip e then XL (r.pi e) else XR (r.pi e)

end TimeSym

theorem ts_batchSq (X : Batch k n) : batchSq (r.bat X) = batchSq X :=
  Equiv.sum_comp r.tau fun t => ∑ i, ∑ j, X t i j ^ 2

theorem ts_bat_sub (X Y : Batch k n) : r.bat X - r.bat Y = r.bat (X - Y) := rfl

theorem ts_bat_add (X Y : Batch k n) : r.bat X + r.bat Y = r.bat (X + Y) := rfl

theorem ts_left_sub (XL XR YL YR : E → Matrix n n ℝ) :
    r.left XL XR - r.left YL YR = r.left (XL - YL) (XR - YR) := by
  funext e; simp only [TimeSym.left, Pi.sub_apply]; split <;> rfl

theorem ts_right_sub (XL XR YL YR : E → Matrix n n ℝ) :
    r.right XL XR - r.right YL YR = r.right (XL - YL) (XR - YR) := by
  funext e; simp only [TimeSym.right, Pi.sub_apply]; split <;> rfl

theorem ts_pairSq (XL XR : E → Matrix n n ℝ) :
    pairSq (r.left XL XR) + pairSq (r.right XL XR) = pairSq XL + pairSq XR := by
  unfold pairSq
  rw [← Finset.sum_add_distrib, ← Finset.sum_add_distrib,
    ← Equiv.sum_comp r.pi fun e => ∑ i, ∑ j, XL e i j ^ 2 + ∑ i, ∑ j, XR e i j ^ 2]
  refine Finset.sum_congr rfl fun e _ => ?_
  simp only [TimeSym.left, TimeSym.right]
  cases r.flip e
  · rfl
  · exact add_comm _ _

theorem ts_scatter (XL XR : E → Matrix n n ℝ) (t : Fin k) :
    scatter g.src (r.left XL XR) t + scatter g.dst (r.right XL XR) t =
      scatter g.src XL (r.tau t) + scatter g.dst XR (r.tau t) := by
  unfold scatter
  rw [← Finset.sum_add_distrib, ← Finset.sum_add_distrib,
    ← Equiv.sum_comp r.pi fun e => (if g.src e = r.tau t then XL e else 0) + if g.dst e = r.tau t then XR e else 0]
  refine Finset.sum_congr rfl fun e _ => ?_
  have h1 : g.src e = t ↔ r.tau (g.src e) = r.tau t := (EmbeddingLike.apply_eq_iff_eq _).symm
  have h2 : g.dst e = t ↔ r.tau (g.dst e) = r.tau t := (EmbeddingLike.apply_eq_iff_eq _).symm
  simp only [h1, h2, r.src_eq, r.dst_eq, TimeSym.left, TimeSym.right]
  cases r.flip e
  · rfl
  · exact add_comm _ _

theorem ts_left_ends (X : Batch k n) :
    (fun e => r.bat X (g.src e)) = r.left (fun e => X (g.src e)) (fun e => X (g.dst e)) := by
  funext e
  simp only [TimeSym.bat, TimeSym.left, r.src_eq]
  cases r.flip e <;> rfl

theorem ts_right_ends (X : Batch k n) :
    (fun e => r.bat X (g.dst e)) = r.right (fun e => X (g.src e)) (fun e => X (g.dst e)) := by
  funext e
  simp only [TimeSym.bat, TimeSym.right, r.dst_eq]
  cases r.flip e <;> rfl

theorem ts_loss (S K : Batch k n) (nS : Fin k → ℝ) : tglLoss (r.bat S) (r.bat K) (r.bat nS) = tglLoss S K nS :=
  XF_sum_perm r.tau fun t => XF.mul (.fin (-nS t)) (XF.sub (logdetXF (K t)) (.fin (∑ i, ∑ j, S t i j * K t i j)))

/-- An operator that turns the difference around when the two time points change places. -/
def OddProx (prox : Matrix n n ℝ → ℝ → Matrix n n ℝ) : Prop := ∀ M lam, prox (-M) lam = -prox M lam

theorem ts_Z1_swap {prox : Matrix n n ℝ → ℝ → Matrix n n ℝ} (hp : OddProx prox) (w rho : ℝ) (A B : Matrix n n ℝ) :
    tglZ1 prox w rho B A = tglZ2 prox w rho A B := by
  unfold tglZ1 tglZ2
  rw [← neg_sub B A, hp]
  congr 1
  abel

theorem ts_Z2_swap {prox : Matrix n n ℝ → ℝ → Matrix n n ℝ} (hp : OddProx prox) (w rho : ℝ) (A B : Matrix n n ℝ) :
    tglZ2 prox w rho B A = tglZ1 prox w rho A B := by
  unfold tglZ1 tglZ2
  rw [← neg_sub B A, hp]
  congr 1
  abel

theorem ts_pairs1 {prox : Matrix n n ℝ → ℝ → Matrix n n ℝ} (hp : OddProx prox) (w : E → ℝ) (rho : ℝ)
    (AL AR : E → Matrix n n ℝ) :
    (fun e => tglZ1 prox (w (r.pi e)) rho (r.left AL AR e) (r.right AL AR e)) =
      r.left (fun e => tglZ1 prox (w e) rho (AL e) (AR e)) (fun e => tglZ2 prox (w e) rho (AL e) (AR e)) := by
  funext e
  simp only [TimeSym.left, TimeSym.right]
  cases r.flip e
  · rfl
  · exact ts_Z1_swap hp _ _ _ _

theorem ts_pairs2 {prox : Matrix n n ℝ → ℝ → Matrix n n ℝ} (hp : OddProx prox) (w : E → ℝ) (rho : ℝ)
    (AL AR : E → Matrix n n ℝ) :
    (fun e => tglZ2 prox (w (r.pi e)) rho (r.left AL AR e) (r.right AL AR e)) =
      r.right (fun e => tglZ1 prox (w e) rho (AL e) (AR e)) (fun e => tglZ2 prox (w e) rho (AL e) (AR e)) := by
  funext e
  simp only [TimeSym.left, TimeSym.right]
  cases r.flip e
  · rfl
  · exact ts_Z2_swap hp _ _ _ _

theorem ts_left_add (XL XR YL YR : E → Matrix n n ℝ) (e : E) :
    r.left XL XR e + r.left YL YR e = r.left (fun e => XL e + YL e) (fun e => XR e + YR e) e := by
  simp only [TimeSym.left]; split <;> rfl

theorem ts_right_add (XL XR YL YR : E → Matrix n n ℝ) (e : E) :
    r.right XL XR e + r.right YL YR e = r.right (fun e => XL e + YL e) (fun e => XR e + YR e) e := by
  simp only [TimeSym.right]; split <;> rfl

theorem ts_left_sub' (XL XR YL YR : E → Matrix n n ℝ) (e : E) :
    r.left XL XR e - r.left YL YR e = r.left (fun e => XL e - YL e) (fun e => XR e - YR e) e := by
  simp only [TimeSym.left]; split <;> rfl

theorem ts_right_sub' (XL XR YL YR : E → Matrix n n ℝ) (e : E) :
    r.right XL XR e - r.right YL YR e = r.right (fun e => XL e - YL e) (fun e => XR e - YR e) e := by
  simp only [TimeSym.right]; split <;> rfl

theorem ts_left_smul (c : ℝ) (XL XR : E → Matrix n n ℝ) (e : E) :
    c • r.left XL XR e = r.left (fun e => c • XL e) (fun e => c • XR e) e := by
  simp only [TimeSym.left]; split <;> rfl

theorem ts_right_smul (c : ℝ) (XL XR : E → Matrix n n ℝ) (e : E) :
    c • r.right XL XR e = r.right (fun e => c • XL e) (fun e => c • XR e) e := by
  simp only [TimeSym.right]; split <;> rfl

theorem ts_left_zero : r.left (0 : E → Matrix n n ℝ) 0 = 0 := by
  funext e; simp [TimeSym.left]

theorem ts_right_zero : r.right (0 : E → Matrix n n ℝ) 0 = 0 := by
  funext e; simp [TimeSym.right]

theorem ts_psi {psi : Matrix n n ℝ → ℝ} (hpsi : ∀ M, psi (-M) = psi M) (w : E → ℝ) (XL XR : E → Matrix n n ℝ) :
    ∑ e, psi (r.right XL XR e - r.left XL XR e) * w (r.pi e) = ∑ e, psi (XR e - XL e) * w e := by
  rw [← Equiv.sum_comp r.pi fun e => psi (XR e - XL e) * w e]
  refine Finset.sum_congr rfl fun e _ => ?_
  simp only [TimeSym.left, TimeSym.right]
  cases r.flip e
  · rfl
  · show psi (XL (r.pi e) - XR (r.pi e)) * _ = _
    rw [← neg_sub, hpsi]

end Verif.Lemmas
