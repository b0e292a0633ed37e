import Verif.Util.RotGroup
import Verif.Num.SpinField

/-!
# The three-component `rotate_alm` rotates the Stokes parameters (C71)
-/

namespace Verif.Risbo

open Verif Res Verif.Num Verif.Harm Verif.PowSpec Verif.Share Verif.Rot Matrix

/-- `Q + iU` of the function with gradient and curl expansions `aG`, `aC` at the point `g e_z` of the sphere, with respect to the
directions `g e_x`, `g e_y`. -/
noncomputable def stokes (aG aC : Alm ℂ) (g : M3) : ℂ := polIn (fun l m => coefs aG l m + Complex.I * coefs aC l m) aG.lmax.toNat g

theorem polIn_congr {p q : ℕ → ℤ → ℂ} {L : ℕ} (h : ∀ l m, l ≤ L → |m| ≤ (l : ℤ) → p l m = q l m) (g : M3) : polIn p L g = polIn q L g := by
  unfold polIn polAt polField
  congr 2
  apply Finset.sum_congr rfl; intro l hl
  apply Finset.sum_congr rfl; intro i hi
  rw [h l _ (Finset.mem_Icc.mp hl).2 (range_abs hi)]

/-- C71: the three-component `rotate_alm` moves the temperature at `n` to `R n`, and the Stokes parameters `Q`, `U` measured in any
frame `g` to the frame `R g`, with `R = Rz(phi) Ry(theta) Rz(psi)`. -/
theorem C71_polarised (x : Exec) (aT aG aC : Alm ℂ) (wT : aT.WF) (wG : aG.WF) (wC : aC.WF) (h : aT.lmax = aT.mmax)
    (hG : conformable aG aT) (hC : conformable aC aT) (rT : RealField (PowSpec.coef aT) aT.lmax) (rG : RealField (PowSpec.coef aG) aG.lmax)
    (rC : RealField (PowSpec.coef aC) aC.lmax) (psi theta phi : ℝ) :
    ∃ bT bG bC, x.rotate3 aT aG aC psi theta phi = ok (bT, bG, bC) ∧
      (∀ n, IsUnit3 n → sky bT ((Rz phi * Ry theta * Rz psi) *ᵥ n) = sky aT n) ∧
      ∀ g, Proper g → stokes bG bC ((Rz phi * Ry theta * Rz psi) * g) = stokes aG aC g := by
  obtain ⟨bT, bG, bC, h3, xT, xG, xC⟩ := (C71_three x aT aG aC psi theta phi).2 wT wG wC h hG hC
  obtain ⟨T', yT, -, vT⟩ := C71_field x aT wT h rT psi theta phi
  obtain ⟨G', yG, -, lG, -, -, vG⟩ := x.rotate_coefs wG (by rw [hG.1, hG.2, h]) rG psi theta phi
  obtain ⟨C', yC, -, lC, -, -, vC⟩ := x.rotate_coefs wC (by rw [hC.1, hC.2, h]) rC psi theta phi
  rw [xT] at yT; cases yT
  rw [xG] at yG; cases yG
  rw [xC] at yC; cases yC
  refine ⟨bT, bG, bC, h3, fun n hn => (vT n hn).2, ?_⟩
  intro g hg
  have h0 : 0 ≤ aG.lmax := by have := wG.1; rw [hG.1, h, ← hG.2]; exact this
  have hLC : aC.lmax = aG.lmax := by rw [hC.1, hG.1]
  rw [← C51_euler_composition]
  unfold stokes
  rw [lG, polIn_congr (q := rotD (fun l m => coefs aG l m + Complex.I * coefs aC l m) phi theta psi) (by
    intro l m hl hm
    rw [vG l m (by omega) hm, vC l m (by omega) hm]
    unfold rotD
    rw [Finset.mul_sum, ← Finset.sum_add_distrib]
    apply Finset.sum_congr rfl; intro i _
    ring)]
  exact polIn_rotate _ _ _ _ _ hg

/-- The hypotheses are met by a polarised expansion with `lmax = 2`. -/
example : ∃ bT bG bC, serialExec.rotate3 ⟨2, 2, [1, 2, 3, 4, 5, 6]⟩ ⟨2, 2, [0, 0, 1, 0, 0, Complex.I]⟩ ⟨2, 2, [0, 0, 2, 0, 1, 0]⟩ 1 2 3 = ok (bT, bG, bC) ∧
    stokes bG bC (Rz 3 * Ry 2 * Rz 1) = stokes ⟨2, 2, [0, 0, 1, 0, 0, Complex.I]⟩ ⟨2, 2, [0, 0, 2, 0, 1, 0]⟩ 1 := by
  have hr : ∀ a : List ℂ, (∀ i < 3, ((a.getD i 0).im = 0)) → a.length = 6 → RealField (PowSpec.coef ⟨2, 2, a⟩) 2 := by
    intro a ha hl l hl2
    have : l = 0 ∨ l = 1 ∨ l = 2 := by omega
    obtain ⟨a0, a1, a2, a3, a4, a5, rfl⟩ : ∃ a0 a1 a2 a3 a4 a5, a = [a0, a1, a2, a3, a4, a5] := by
      match a, hl with
      | [a0, a1, a2, a3, a4, a5], _ => exact ⟨a0, a1, a2, a3, a4, a5, rfl⟩
    have h0 := ha 0 (by omega); have h1 := ha 1 (by omega); have h2 := ha 2 (by omega)
    rcases this with rfl | rfl | rfl <;> simp_all [PowSpec.coef, Alm.get, index, indexL0, rd]
  obtain ⟨bT, bG, bC, h1, -, h2⟩ := C71_polarised serialExec ⟨2, 2, [1, 2, 3, 4, 5, 6]⟩ ⟨2, 2, [0, 0, 1, 0, 0, Complex.I]⟩ ⟨2, 2, [0, 0, 2, 0, 1, 0]⟩
    ⟨by decide, by decide, by decide⟩ ⟨by decide, by decide, by decide⟩ ⟨by decide, by decide, by decide⟩ rfl ⟨rfl, rfl⟩ ⟨rfl, rfl⟩
    (hr _ (by intro i hi; interval_cases i <;> simp) rfl) (hr _ (by intro i hi; interval_cases i <;> simp) rfl)
    (hr _ (by intro i hi; interval_cases i <;> simp) rfl) 1 2 3
  refine ⟨bT, bG, bC, h1, ?_⟩
  have := h2 1 (by have := (C51_euler_proper 0 0 0).1; rwa [euler_zero] at this)
  rwa [mul_one] at this

end Verif.Risbo
