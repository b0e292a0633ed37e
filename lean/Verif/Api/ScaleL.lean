import Verif.Index.Alm

/-!
# `Alm::Scale` and `Alm::ScaleL` coefficient by coefficient
-/

namespace Verif.Harm
open Verif Res

variable {α : Type}

theorem Alm.scale_wf {a : Alm α} (h : a.WF) (f : α → α) : (a.scale f).WF := by
  unfold Alm.WF at *; simpa [Alm.scale] using h

theorem Alm.scale_get {a : Alm α} (h : a.WF) (f : α → α) {l m : Int}
    (hv : Valid a.lmax a.mmax l m) {x : α} (hx : a.get l m = ok x) :
    (a.scale f).get l m = ok (f x) := by
  obtain ⟨h1, h2⟩ := a.idx_ok h hv
  unfold Alm.get Alm.scale at *
  dsimp only
  rw [rd_eq_ok] at hx ⊢
  exact ⟨h1, by rw [List.getElem?_map, hx.2]; rfl⟩

/-- The inner loop of `ScaleL`: the first `n` coefficients of column `m` are multiplied. -/
theorem scaleL_inner {a : Alm α} (ha : a.WF) (mul : α → Nat → α) (m : Nat) (hm : (m : Int) ≤ a.mmax) :
    ∀ n : Nat, (n : Int) ≤ a.lmax + 1 - m →
    ∃ b, forN n (fun k (t : Alm α) => do
        let l : Int := (m : Int) + k
        let x ← t.get l m
        t.put l m (mul x (m + k))) a = ok b ∧ b.WF ∧ b.lmax = a.lmax ∧ b.mmax = a.mmax ∧
      ∀ l' m', Valid a.lmax a.mmax l' m' → ∀ x, a.get l' m' = ok x →
        b.get l' m' = ok (if m' = m ∧ l' < m + n then mul x l'.toNat else x)
  | 0, _ => ⟨a, rfl, ha, rfl, rfl, fun l' m' hv x hx => by
      have : ¬ (m' = (m : Int) ∧ l' < (m : Int) + ((0 : Nat) : Int)) := by
        rintro ⟨h1, h2⟩; have := hv.2.2.1; simp at h2; omega
      rw [if_neg this, hx]⟩
  | n + 1, hn => by
    obtain ⟨b, hb, hwf, hl, hmm, hget⟩ := scaleL_inner ha mul m hm n (by push_cast at hn; omega)
    have hv : Valid a.lmax a.mmax ((m : Int) + n) m := by
      refine ⟨by omega, hm, by omega, by push_cast at hn; omega⟩
    have hvb : Valid b.lmax b.mmax ((m : Int) + n) m := by rw [hl, hmm]; exact hv
    obtain ⟨x, hx⟩ := a.get_ok ha hv
    have hbx := hget _ _ hv x hx
    rw [if_neg (by omega)] at hbx
    have hput := b.put_ok hwf hvb (mul x (m + n))
    obtain ⟨w1, w2, w3⟩ := b.put_wf hwf hput
    refine ⟨_, ?_, w1, w2.trans hl, w3.trans hmm, ?_⟩
    · rw [forN_succ, hb, ok_bind]
      dsimp only
      rw [hbx, ok_bind, hput]
    · intro l' m' hv' y hy
      by_cases he : (l', m') = ((m : Int) + n, (m : Int))
      · cases he
        rw [Alm.get_put_same hput]
        rw [hx] at hy; cases hy
        rw [if_pos ⟨rfl, by push_cast; omega⟩]
        congr 2
      · have hvb' : Valid b.lmax b.mmax l' m' := by rw [hl, hmm]; exact hv'
        rw [Alm.get_put_other hwf hvb hvb' (by intro h; exact he h.symm) hput, hget l' m' hv' y hy]
        have : (m' = (m : Int) ∧ l' < (m : Int) + n) ↔
            (m' = (m : Int) ∧ l' < (m : Int) + ((n + 1 : Nat) : Int)) := by
          push_cast
          constructor
          · rintro ⟨h1, h2⟩; exact ⟨h1, by omega⟩
          · rintro ⟨h1, h2⟩
            refine ⟨h1, ?_⟩
            by_contra h3
            exact he (by rw [h1]; congr 1; omega)
        by_cases hc : m' = (m : Int) ∧ l' < (m : Int) + n
        · rw [if_pos hc, if_pos (this.mp hc)]
        · rw [if_neg hc, if_neg (fun h => hc (this.mpr h))]

/-- `ScaleL` multiplies every coefficient by the factor of its degree. -/
theorem Alm.scaleL_ok {a : Alm α} (ha : a.WF) (mul : α → Nat → α) :
    ∃ b, a.scaleL mul = ok b ∧ b.WF ∧ b.lmax = a.lmax ∧ b.mmax = a.mmax ∧
      ∀ l m, Valid a.lmax a.mmax l m → ∀ x, a.get l m = ok x →
        b.get l m = ok (mul x l.toNat) := by
  unfold Alm.scaleL
  have key := forN_inv (a.mmax + 1).toNat (fun m (s : Alm α) =>
      forN (a.lmax + 1 - m).toNat (fun k (t : Alm α) => do
        let l : Int := (m : Int) + k
        let x ← t.get l m
        t.put l m (mul x (m + k))) s) a
    (fun i b => b.WF ∧ b.lmax = a.lmax ∧ b.mmax = a.mmax ∧
      ∀ l m, Valid a.lmax a.mmax l m → ∀ x, a.get l m = ok x →
        b.get l m = ok (if m < i then mul x l.toNat else x))
    ⟨ha, rfl, rfl, fun l m hv x hx => by
      have := hv.1
      rw [if_neg (by push_cast; omega), hx]⟩
    (by
      intro i b hi hb
      obtain ⟨h1, h2, h3, h4⟩ := hb
      have him : (i : Int) ≤ a.mmax := by omega
      have hle := ha.2.1
      obtain ⟨c, c1, c2, c3, c4, c5⟩ := scaleL_inner h1 mul i (by omega)
        (a.lmax + 1 - i).toNat (by omega)
      refine ⟨c, c1, c2, c3.trans h2, c4.trans h3, ?_⟩
      intro l m hv x hx
      have hb := h4 l m hv x hx
      rw [c5 l m (by rw [h2, h3]; exact hv) _ hb]
      have hv4 := hv.2.2.2
      have hcast : ((a.lmax + 1 - (i : Int)).toNat : Int) = a.lmax + 1 - i := by omega
      rw [hcast]
      push_cast
      by_cases hc : m = (i : Int)
      · rw [if_pos ⟨hc, by omega⟩, if_neg (by omega), if_pos (by omega)]
      · rw [if_neg (by rintro ⟨h, -⟩; exact hc h)]
        by_cases hlt : m < (i : Int)
        · rw [if_pos hlt, if_pos (by omega)]
        · rw [if_neg hlt, if_neg (by omega)])
  obtain ⟨b, hb, h1, h2, h3, h4⟩ := key
  refine ⟨b, hb, h1, h2, h3, fun l m hv x hx => ?_⟩
  rw [h4 l m hv x hx, if_pos]
  have := ha.1
  have := hv.2.1
  omega

end Verif.Harm
