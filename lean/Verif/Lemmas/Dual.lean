import Mathlib.Analysis.Convex.Cone.Extension
import Mathlib.LinearAlgebra.Prod
import Mathlib.Tactic.Linarith
import Mathlib.Tactic.Ring
import Mathlib.Tactic.FieldSimp
import Mathlib.Tactic.Module

/-! Existence of multipliers: a linear functional that supports a finite convex function along a subspace
extends to a subgradient (from the M. Riesz extension theorem). -/

namespace Verif.Lemmas

set_option autoImplicit false

variable {D E : Type*} [AddCommGroup D] [Module ℝ D] [AddCommGroup E] [Module ℝ E]

/-- The cone of directions `(z, r)` along which `F` grows at `x` at most with slope `r`. -/
def slopeCone (F : E → ℝ) (x : E)
    (hF : ∀ X Y : E, ∀ t : ℝ, 0 ≤ t → t ≤ 1 → F (X + t • (Y - X)) ≤ (1 - t) * F X + t * F Y) :
    PointedCone ℝ (E × ℝ) where
  carrier := {p | ∃ s : ℝ, 0 < s ∧ F (x + s • p.1) - F x ≤ s * p.2}
  zero_mem' := ⟨1, one_pos, by simp⟩
  add_mem' := by
    rintro ⟨z1, r1⟩ ⟨z2, r2⟩ ⟨s1, h1, g1⟩ ⟨s2, h2, g2⟩
    refine ⟨s1 * s2 / (s1 + s2), by positivity, ?_⟩
    simp only at g1 g2
    change F (x + (s1 * s2 / (s1 + s2)) • (z1 + z2)) - F x ≤ s1 * s2 / (s1 + s2) * (r1 + r2)
    have hs : 0 < s1 + s2 := by positivity
    have h := hF (x + s1 • z1) (x + s2 • z2) (s1 / (s1 + s2)) (by positivity)
      ((div_le_one hs).mpr (by linarith))
    have e : x + s1 • z1 + (s1 / (s1 + s2)) • (x + s2 • z2 - (x + s1 • z1)) =
        x + (s1 * s2 / (s1 + s2)) • (z1 + z2) := by
      have e1 : s1 / (s1 + s2) * s2 = s1 * s2 / (s1 + s2) := by ring
      have e2 : s1 - s1 / (s1 + s2) * s1 = s1 * s2 / (s1 + s2) := by field_simp; ring
      have e3 : x + s1 • z1 + (s1 / (s1 + s2)) • (x + s2 • z2 - (x + s1 • z1)) =
          x + ((s1 - s1 / (s1 + s2) * s1) • z1 + (s1 / (s1 + s2) * s2) • z2) := by module
      rw [e3, e1, e2, smul_add]
    rw [e] at h
    have e3 : 1 - s1 / (s1 + s2) = s2 / (s1 + s2) := by field_simp; ring
    rw [e3] at h
    have k1 := mul_le_mul_of_nonneg_left g1 (by positivity : 0 ≤ s2 / (s1 + s2))
    have k2 := mul_le_mul_of_nonneg_left g2 (by positivity : 0 ≤ s1 / (s1 + s2))
    have e4 : s2 / (s1 + s2) * (F (x + s1 • z1) - F x) + s1 / (s1 + s2) * (F (x + s2 • z2) - F x) =
        s2 / (s1 + s2) * F (x + s1 • z1) + s1 / (s1 + s2) * F (x + s2 • z2) - F x := by
      field_simp; ring
    have e5 : s2 / (s1 + s2) * (s1 * r1) + s1 / (s1 + s2) * (s2 * r2) =
        s1 * s2 / (s1 + s2) * (r1 + r2) := by ring
    linarith
  smul_mem' := by
    rintro ⟨c, hc⟩ ⟨z, r⟩ ⟨s, h, g⟩
    simp only at g
    rcases hc.eq_or_lt with h0 | h0
    · refine ⟨1, one_pos, ?_⟩
      change F (x + (1 : ℝ) • (c • z)) - F x ≤ 1 * (c * r)
      rw [← h0]; simp
    · refine ⟨s / c, by positivity, ?_⟩
      change F (x + (s / c) • (c • z)) - F x ≤ s / c * (c * r)
      rw [smul_smul, div_mul_cancel₀ _ h0.ne', ← mul_assoc, div_mul_cancel₀ _ h0.ne']
      exact g

theorem exists_multiplier (A : D →ₗ[ℝ] E) (hA : Function.Injective A) (F : E → ℝ)
    (hF : ∀ X Y : E, ∀ t : ℝ, 0 ≤ t → t ≤ 1 → F (X + t • (Y - X)) ≤ (1 - t) * F X + t * F Y)
    (x : E) (l : D →ₗ[ℝ] ℝ) (hl : ∀ d, F x + l d ≤ F (x + A d)) :
    ∃ u : E →ₗ[ℝ] ℝ, (∀ d, u (A d) = l d) ∧ ∀ z, F x + u z ≤ F (x + z) := by
  set B : (D × ℝ) →ₗ[ℝ] (E × ℝ) := A.prodMap LinearMap.id with hB
  have hBi : Function.Injective B := by
    rintro ⟨d1, r1⟩ ⟨d2, r2⟩ h
    have h' := Prod.ext_iff.mp h
    exact Prod.ext (hA h'.1) h'.2
  set e := LinearEquiv.ofInjective B hBi
  let f : (E × ℝ) →ₗ.[ℝ] ℝ :=
    ⟨LinearMap.range B, (LinearMap.snd ℝ D ℝ - l.comp (LinearMap.fst ℝ D ℝ)).comp e.symm.toLinearMap⟩
  have hfB : ∀ d r, f ⟨B (d, r), LinearMap.mem_range_self B (d, r)⟩ = r - l d := by
    intro d r
    have : e.symm ⟨B (d, r), LinearMap.mem_range_self B (d, r)⟩ = (d, r) :=
      e.symm_apply_apply (d, r)
    change (LinearMap.snd ℝ D ℝ - l.comp (LinearMap.fst ℝ D ℝ)) (e.symm _) = _
    rw [this]
    rfl
  obtain ⟨g, hg1, hg2⟩ := riesz_extension (slopeCone F x hF) f (by
    rintro ⟨_, ⟨⟨d, r⟩, rfl⟩⟩ ⟨s, hs, h⟩
    rw [hfB]
    have h1 := hl (s • d)
    rw [map_smul, map_smul] at h1
    have h2 : F (x + s • A d) - F x ≤ s * r := h
    have h3 : 0 ≤ s * (r - l d) := by
      rw [mul_sub]
      simp only [smul_eq_mul] at h1
      linarith
    exact nonneg_of_mul_nonneg_right h3 hs) (by
    rintro ⟨z, r⟩
    refine ⟨⟨B (0, F (x + z) - F x - r), LinearMap.mem_range_self _ _⟩, 1, one_pos, ?_⟩
    change F (x + (1 : ℝ) • (A 0 + z)) - F x ≤ 1 * (F (x + z) - F x - r + r)
    rw [map_zero, zero_add, one_smul]
    linarith)
  have hg0 : ∀ d r, g (A d, r) = r - l d := by
    intro d r
    have := hg1 ⟨B (d, r), LinearMap.mem_range_self B (d, r)⟩
    rw [hfB] at this
    exact this
  refine ⟨-(g.comp (LinearMap.inl ℝ E ℝ)), fun d => ?_, fun z => ?_⟩
  · have := hg0 d 0
    simp only [LinearMap.neg_apply, LinearMap.comp_apply, LinearMap.inl_apply, this]
    ring
  · have h1 := hg2 (z, F (x + z) - F x) ⟨1, one_pos, by simp⟩
    have h2 : g (z, F (x + z) - F x) = g (z, 0) + g (A 0, F (x + z) - F x) := by
      rw [← map_add, map_zero]; simp
    rw [h2, hg0, map_zero] at h1
    simp only [LinearMap.neg_apply, LinearMap.comp_apply, LinearMap.inl_apply]
    linarith

end Verif.Lemmas
