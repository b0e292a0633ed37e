import Verif.Base.Res
import Mathlib.Tactic.Ring
import Mathlib.Tactic.Linarith
import Mathlib.Tactic.Positivity

/-!
# Storage layout of spherical harmonic coefficients

Model of `levels/Healpix_cxx/ls_alm.h` (`Alm_Base`, `Alm`) and `alm.cc` (`Num_Alms`).
Integers are unbounded here; 32-bit overflow is treated in `Verif/Index/Overflow.lean`.
-/

namespace Verif.Harm
open Verif Res

/-- `Alm_Base::Num_Alms`, levels/Healpix_cxx/alm.cc:41-45.
The assertion failure throws (`levels_assert`). C++ division of the non-negative product
is floor division. -/
def numAlms (l m : Int) : Res Int :=
  if m ≤ l then ok (((m + 1) * (m + 2)) / 2 + (m + 1) * (l - m))
  else throw "mmax must not be larger than lmax"

/-- `Alm_Base::index_l0`, levels/Healpix_cxx/ls_alm.h:72-73; `tval = 2*lmax+1`;
`>>1` is floor division by two. -/
def indexL0 (lmax m : Int) : Int := (m * ((2 * lmax + 1) - m)) / 2

/-- `Alm_Base::index`, levels/Healpix_cxx/ls_alm.h:76-77. -/
def index (lmax l m : Int) : Int := indexL0 lmax m + l

/-- `Alm<T>`, levels/Healpix_cxx/ls_alm.h:89-92. -/
structure Alm (α : Type) where
  lmax : Int
  mmax : Int
  alm : List α
  deriving Repr, DecidableEq

variable {α : Type}

/-- `Alm::Set(lmax,mmax)` followed by `SetToZero`, levels/Healpix_cxx/ls_alm.h:101-105,
117-118.  (Plain `Set` leaves the contents indeterminate; every caller in libconviqt
fills it afterwards.) -/
def mkZero (zero : α) (lmax mmax : Int) : Res (Alm α) := do
  let n ← numAlms lmax mmax
  if n < 0 then throw "allocation of negative size" else
  ok { lmax := lmax, mmax := mmax, alm := List.replicate n.toNat zero }

/-- `Alm::operator()(l,m)` as rvalue, levels/Healpix_cxx/ls_alm.h:146-150. -/
def Alm.get (a : Alm α) (l m : Int) : Res α := rd a.alm (index a.lmax l m)

/-- `Alm::operator()(l,m) = v`, levels/Healpix_cxx/ls_alm.h:146-147. -/
def Alm.put (a : Alm α) (l m : Int) (v : α) : Res (Alm α) := do
  let d ← wr a.alm (index a.lmax l m) v
  ok { a with alm := d }

/-- `Alm::Scale`, levels/Healpix_cxx/ls_alm.h:121-122. -/
def Alm.scale (a : Alm α) (f : α → α) : Alm α := { a with alm := a.alm.map f }

/-- `Alm::ScaleL`, levels/Healpix_cxx/ls_alm.h:124-131: double loop over `m` and `l`;
`mul x l` is `x * factor[l]`. -/
def Alm.scaleL (a : Alm α) (mul : α → Nat → α) : Res (Alm α) :=
  forN (a.mmax + 1).toNat (fun m s =>
    forN (a.lmax + 1 - m).toNat (fun k t => do
      let l : Int := m + k
      let x ← t.get l m
      t.put l m (mul x (m + k))) s) a

/-- Object invariant established by the constructor / `Set`. -/
def Alm.WF (a : Alm α) : Prop :=
  0 ≤ a.mmax ∧ a.mmax ≤ a.lmax ∧ numAlms a.lmax a.mmax = ok (a.alm.length : Int)

instance (a : Alm α) : Decidable a.WF := by unfold Alm.WF; infer_instance

/-- The coefficients that exist for the given limits. -/
def Valid (lmax mmax l m : Int) : Prop := 0 ≤ m ∧ m ≤ mmax ∧ m ≤ l ∧ l ≤ lmax

instance (a b c d : Int) : Decidable (Valid a b c d) := by unfold Valid; infer_instance

/-! ## arithmetic -/

theorem indexL0_succ {lmax m : Int} : indexL0 lmax (m + 1) = indexL0 lmax m + (lmax - m) := by
  unfold indexL0
  have : (m + 1) * (2 * lmax + 1 - (m + 1)) = m * (2 * lmax + 1 - m) + 2 * (lmax - m) := by ring
  rw [this, Int.add_mul_ediv_left _ _ (by norm_num)]

theorem index_next_col {lmax m : Int} : index lmax (m + 1) (m + 1) = index lmax lmax m + 1 := by
  unfold index; rw [indexL0_succ]; ring

theorem numAlms_eq {lmax mmax : Int} (h : mmax ≤ lmax) :
    numAlms lmax mmax = ok (index lmax lmax mmax + 1) := by
  unfold numAlms index indexL0
  rw [if_pos h]
  have h1 : (mmax + 1) * (mmax + 2) + 2 * ((mmax + 1) * (lmax - mmax))
      = mmax * (2 * lmax + 1 - mmax) + 2 * (lmax + 1) := by ring
  have h2 : ((mmax + 1) * (mmax + 2)) / 2 + (mmax + 1) * (lmax - mmax)
      = ((mmax + 1) * (mmax + 2) + 2 * ((mmax + 1) * (lmax - mmax))) / 2 := by
    rw [Int.add_mul_ediv_left _ _ (by norm_num)]
  rw [h2, h1, Int.add_mul_ediv_left _ _ (by norm_num)]
  congr 1; ring

/-- column starts are monotone -/
theorem col_le {lmax : Int} (k : Nat) (m : Int) (h : m + k ≤ lmax + 1) :
    index lmax m m + k ≤ index lmax (m + k) (m + k) := by
  induction k with
  | zero => simp
  | succ k ih =>
    have h1 := ih (by push_cast at h ⊢; omega)
    have h2 := @index_next_col lmax (m + k)
    have : index lmax lmax (m + k) = index lmax (m + k) (m + k) + (lmax - (m + k)) := by
      unfold index; ring
    push_cast
    push_cast at h
    rw [show m + ((k : Int) + 1) = m + k + 1 by ring, h2, this]
    omega

theorem index_nonneg {lmax l m : Int} (hm : 0 ≤ m) (hml : m ≤ l) (hl : l ≤ lmax) :
    0 ≤ index lmax l m := by
  have := col_le (lmax := lmax) m.toNat 0 (by omega)
  have h0 : index lmax 0 0 = 0 := by simp [index, indexL0]
  rw [h0] at this
  have hm' : (m.toNat : Int) = m := by omega
  simp only [hm', zero_add] at this
  have h3 : index lmax l m = index lmax m m + (l - m) := by unfold index; ring
  omega

theorem index_lt_of_col_lt {lmax l m l' m' : Int} (hm : m < m') (hml' : m' ≤ l')
    (hl : l ≤ lmax) (hm'l : m' ≤ lmax) : index lmax l m < index lmax l' m' := by
  have := col_le (lmax := lmax) (m' - (m + 1)).toNat (m + 1) (by omega)
  have e : m + 1 + ((m' - (m + 1)).toNat : Int) = m' := by omega
  rw [e] at this
  have h2 := @index_next_col lmax m
  have h3 : index lmax l' m' = index lmax m' m' + (l' - m') := by unfold index; ring
  have h4 : index lmax lmax m = index lmax l m + (lmax - l) := by unfold index; ring
  omega

theorem index_inj {lmax mmax l m l' m' : Int} (_hlm : mmax ≤ lmax)
    (h : Valid lmax mmax l m) (h' : Valid lmax mmax l' m')
    (e : index lmax l m = index lmax l' m') : l = l' ∧ m = m' := by
  obtain ⟨a1, a2, a3, a4⟩ := h
  obtain ⟨b1, b2, b3, b4⟩ := h'
  rcases lt_trichotomy m m' with hlt | heq | hgt
  · have := index_lt_of_col_lt (l := l) (l' := l') (lmax := lmax) hlt b3 a4 (by omega); omega
  · subst heq; unfold index at e; omega
  · have := index_lt_of_col_lt (l := l') (l' := l) (lmax := lmax) hgt a3 b4 (by omega); omega

theorem index_lt {lmax mmax l m : Int} (hlm : mmax ≤ lmax) (h : Valid lmax mmax l m) :
    index lmax l m < index lmax lmax mmax + 1 := by
  obtain ⟨a1, a2, a3, a4⟩ := h
  rcases lt_or_eq_of_le a2 with hlt | heq
  · have := index_lt_of_col_lt (l := l) (l' := lmax) (lmax := lmax) hlt hlm a4 hlm; omega
  · subst heq; unfold index; omega

theorem index_surj {lmax : Int} (k : Nat) (hlm : (k : Int) ≤ lmax) (i : Int) (h0 : 0 ≤ i)
    (hi : i < index lmax lmax k + 1) : ∃ l m, Valid lmax k l m ∧ index lmax l m = i := by
  induction k with
  | zero =>
    refine ⟨i, 0, ⟨by omega, by omega, h0, ?_⟩, by simp [index, indexL0]⟩
    simp [index, indexL0] at hi; omega
  | succ k ih =>
    by_cases hc : i < index lmax lmax k + 1
    · obtain ⟨l, m, ⟨a, b, c, d⟩, e⟩ := ih (by push_cast at hlm; omega) hc
      exact ⟨l, m, ⟨a, by push_cast; omega, c, d⟩, e⟩
    · have h2 := @index_next_col lmax k
      refine ⟨i - indexL0 lmax (k + 1), k + 1, ⟨by omega, by push_cast; omega, ?_, ?_⟩, ?_⟩
      · unfold index at h2 hc; omega
      · push_cast at hi
        unfold index at hi; omega
      · unfold index; push_cast; ring

/-! ## get / put -/

theorem Alm.WF.len {a : Alm α} (h : a.WF) :
    (a.alm.length : Int) = index a.lmax a.lmax a.mmax + 1 := by
  have := h.2.2; rw [numAlms_eq h.2.1] at this; injection this with this; exact this.symm

theorem Alm.idx_ok {a : Alm α} (h : a.WF) {l m : Int} (hv : Valid a.lmax a.mmax l m) :
    0 ≤ index a.lmax l m ∧ (index a.lmax l m).toNat < a.alm.length := by
  have h1 := index_nonneg hv.1 hv.2.2.1 hv.2.2.2
  have h2 := index_lt h.2.1 hv
  have h3 := h.len
  exact ⟨h1, by omega⟩

theorem Alm.get_ok {a : Alm α} (h : a.WF) {l m : Int} (hv : Valid a.lmax a.mmax l m) :
    ∃ v, a.get l m = ok v := by
  obtain ⟨h1, h2⟩ := a.idx_ok h hv
  exact ⟨_, rd_ok h1 h2⟩

theorem Alm.put_ok {a : Alm α} (h : a.WF) {l m : Int} (hv : Valid a.lmax a.mmax l m) (v : α) :
    a.put l m v = ok { a with alm := a.alm.set (index a.lmax l m).toNat v } := by
  obtain ⟨h1, h2⟩ := a.idx_ok h hv
  unfold Alm.put; rw [wr_ok v h1 h2]; rfl

theorem Alm.put_wf {a b : Alm α} (h : a.WF) {l m : Int} {v : α} (hp : a.put l m v = ok b) :
    b.WF ∧ b.lmax = a.lmax ∧ b.mmax = a.mmax := by
  unfold Alm.put at hp
  rw [bind_eq_ok] at hp
  obtain ⟨d, hd, hb⟩ := hp
  obtain ⟨_, _, rfl⟩ := wr_eq_ok.mp hd
  cases hb
  refine ⟨?_, rfl, rfl⟩
  unfold Alm.WF at *; simpa using h

theorem Alm.get_put_same {a b : Alm α} {l m : Int} {v : α} (hp : a.put l m v = ok b) :
    b.get l m = ok v := by
  unfold Alm.put at hp
  rw [bind_eq_ok] at hp
  obtain ⟨d, hd, hb⟩ := hp
  obtain ⟨h1, h2, rfl⟩ := wr_eq_ok.mp hd
  cases hb
  unfold Alm.get
  rw [rd_eq_ok]
  exact ⟨h1, by simp [h2]⟩

theorem Alm.get_put_other {a b : Alm α} (h : a.WF) {l m l' m' : Int} {v : α}
    (hv : Valid a.lmax a.mmax l m) (hv' : Valid a.lmax a.mmax l' m')
    (hne : (l, m) ≠ (l', m')) (hp : a.put l m v = ok b) :
    b.get l' m' = a.get l' m' := by
  rw [a.put_ok h hv] at hp
  injection hp with hp; subst hp
  obtain ⟨h1, h2⟩ := a.idx_ok h hv
  obtain ⟨h1', h2'⟩ := a.idx_ok h hv'
  have hidx : (index a.lmax l m).toNat ≠ (index a.lmax l' m').toNat := by
    intro e
    have : index a.lmax l m = index a.lmax l' m' := by omega
    obtain ⟨e1, e2⟩ := index_inj h.2.1 hv hv' this
    exact hne (by rw [e1, e2])
  unfold Alm.get
  simp only
  rw [rd_ok h1' (by simpa using h2'), rd_ok h1' h2']
  simp [hidx]

/-- Two well-formed expansions with equal limits and equal coefficients are equal. -/
theorem Alm.ext_get {a b : Alm α} (ha : a.WF) (hb : b.WF) (h1 : a.lmax = b.lmax)
    (h2 : a.mmax = b.mmax)
    (h : ∀ l m, Valid a.lmax a.mmax l m → a.get l m = b.get l m) : a = b := by
  obtain ⟨al, am, ad⟩ := a
  obtain ⟨bl, bm, bd⟩ := b
  simp only at h1 h2; subst h1; subst h2
  congr 1
  have la := ha.len
  have lb := hb.len
  simp only at la lb h
  apply List.ext_getElem (by omega)
  intro i hi1 hi2
  obtain ⟨l, m, hv, e⟩ := index_surj (lmax := al) am.toNat (by have := ha.1; have := ha.2.1; simp only at *; omega)
    (i : Int) (by omega) (by have := ha.1; simp only at this; rw [Int.toNat_of_nonneg this]; omega)
  have hv' : Valid al am l m := by
    have := ha.1; simp only at this; rw [Int.toNat_of_nonneg this] at hv; exact hv
  have hg := h l m hv'
  unfold Alm.get at hg
  simp only [e] at hg
  rw [rd_nat hi1, rd_nat hi2] at hg
  injection hg

theorem mkZero_ok (zero : α) {lmax mmax : Int} (h0 : 0 ≤ mmax) (h : mmax ≤ lmax) :
    ∃ a, mkZero zero lmax mmax = ok a ∧ a.WF ∧ a.lmax = lmax ∧ a.mmax = mmax ∧
      ∀ l m, Valid lmax mmax l m → a.get l m = ok zero := by
  have hn := numAlms_eq h
  have hpos : 0 ≤ index lmax lmax mmax := index_nonneg h0 h (le_refl _)
  refine ⟨{ lmax := lmax, mmax := mmax,
            alm := List.replicate (index lmax lmax mmax + 1).toNat zero }, ?_, ?_, rfl, rfl, ?_⟩
  · unfold mkZero; rw [hn]; simp only [ok_bind]; rw [if_neg (by omega)]
  · refine ⟨h0, h, ?_⟩
    simp only [List.length_replicate]; rw [hn]; congr 1; omega
  · intro l m hv
    have h1 := index_nonneg hv.1 hv.2.2.1 hv.2.2.2
    have h2 := index_lt h hv
    unfold Alm.get; simp only
    rw [rd_eq_ok]
    refine ⟨h1, ?_⟩
    rw [List.getElem?_replicate, if_pos]
    omega

end Verif.Harm
