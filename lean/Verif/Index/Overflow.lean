import Verif.Index.FitsProps
import Mathlib.Tactic.Linarith
import Mathlib.Tactic.Ring
import Mathlib.Tactic.NormNum

/-!
# C25: 32-bit index arithmetic of the a_lm storage

`Index/Alm.lean` and `Index/Fits.lean` compute with unbounded integers.  Here the same functions are modelled
with the `int` arithmetic of the C++ code: every intermediate result that leaves the range of `int` is
undefined behaviour.  The theorems say for which limits the two agree.
-/

namespace Verif.Harm
open Verif Res Verif.Fits

variable {α : Type}

/-- Result of a signed 32-bit operation; overflow is undefined behaviour. -/
def i32 (x : Int) : Res Int := if -2147483648 ≤ x ∧ x ≤ 2147483647 then ok x else ub "signed integer overflow"

theorem i32_ok {x : Int} (h1 : -2147483648 ≤ x) (h2 : x ≤ 2147483647) : i32 x = ok x := if_pos ⟨h1, h2⟩
theorem i32_ub {x : Int} (h : x < -2147483648 ∨ 2147483647 < x) : i32 x = ub "signed integer overflow" :=
  if_neg (by omega)
theorem i32_eq_ok {x y : Int} : i32 x = ok y ↔ x = y ∧ -2147483648 ≤ x ∧ x ≤ 2147483647 := by
  unfold i32
  split
  · rename_i h
    constructor
    · intro e; injection e with e; exact ⟨e, h⟩
    · rintro ⟨e, _⟩; rw [e]
  · rename_i h
    constructor
    · intro e; cases e
    · rintro ⟨_, h'⟩; exact absurd h' h

/-- `Alm_Base::Num_Alms` in `int` arithmetic, levels/Healpix_cxx/alm.cc:41-45. -/
def numAlms32 (l m : Int) : Res Int :=
  if m ≤ l then do
    let a ← i32 (m + 1)
    let b ← i32 (m + 2)
    let p ← i32 (a * b)
    let d ← i32 (l - m)
    let q ← i32 (a * d)
    i32 (p.tdiv 2 + q)
  else throw "mmax must not be larger than lmax"

/-- `tval=2*lmax+1`, levels/Healpix_cxx/ls_alm.h:55, 62. -/
def tval32 (lmax : Int) : Res Int := do
  let t ← i32 (2 * lmax)
  i32 (t + 1)

/-- `index_l0(m) + l` in `int` arithmetic, levels/Healpix_cxx/ls_alm.h:70-77. -/
def index32 (lmax l m : Int) : Res Int := do
  let t ← tval32 lmax
  let d ← i32 (t - m)
  let p ← i32 (m * d)
  i32 (p / 2 + l)

/-- `Alm::Set` and `SetToZero` with `int` arithmetic, levels/Healpix_cxx/ls_alm.h:101-105, 117-118. -/
def mkZero32 (zero : α) (lmax mmax : Int) : Res (Alm α) := do
  let _ ← tval32 lmax
  let n ← numAlms32 lmax mmax
  if n < 0 then throw "allocation of negative size" else
  ok { lmax := lmax, mmax := mmax, alm := List.replicate n.toNat zero }

/-- `Alm::operator()(l,m)` with `int` arithmetic, levels/Healpix_cxx/ls_alm.h:146-150. -/
def Alm.get32 (a : Alm α) (l m : Int) : Res α := do
  let i ← index32 a.lmax l m
  rd a.alm i

/-- `Alm::operator()(l,m) = v` with `int` arithmetic, levels/Healpix_cxx/ls_alm.h:146-147. -/
def Alm.put32 (a : Alm α) (l m : Int) (v : α) : Res (Alm α) := do
  let i ← index32 a.lmax l m
  let d ← wr a.alm i v
  ok { a with alm := d }

/-- `max_index = lmax*lmax + lmax + mmax + 1`, levels/Healpix_cxx/alm_fitsio.cc:105. -/
def maxIndex32 (lmax mmax : Int) : Res Int := do
  let a ← i32 (lmax * lmax)
  let b ← i32 (a + lmax)
  let c ← i32 (b + mmax)
  i32 (c + 1)

/-- Decoding of an index in `int` arithmetic, levels/Healpix_cxx/alm_fitsio.cc:120-121. -/
def decode32 (idx : Int) : Res (Int × Int) := do
  let i ← i32 (idx - 1)
  let l ← isqrt i
  let s ← i32 (l * l)
  let a ← i32 (idx - s)
  let b ← i32 (a - l)
  let c ← i32 (b - 1)
  ok (l, c)

/-- Body of the reading loop in `int` arithmetic, levels/Healpix_cxx/alm_fitsio.cc:116-126. -/
def readRow32 (maxIndex lmax mmax : Int) (a : Alm α) (row : Int × α) : Res (Alm α) :=
  if row.1 > maxIndex then ok a else do
    let (l, m) ← decode32 row.1
    if m < 0 then throw "negative m encountered"
    else if ¬ (l ≥ m) then throw "wrong l,m combination"
    else if l ≤ lmax ∧ m ≤ mmax then a.put32 l m row.2
    else ok a

/-- `read_Alm_from_fits` in `int` arithmetic, levels/Healpix_cxx/alm_fitsio.cc:96-128. -/
def readAlm32 (zero : α) (rows : List (Int × α)) (chunk : Nat) (lmax mmax : Int) : Res (Alm α) := do
  let a ← mkZero32 zero lmax mmax
  let maxIndex ← maxIndex32 lmax mmax
  foldRes (fun a p => foldRes (readRow32 maxIndex lmax mmax) a ((rows.drop p.1).take p.2)) a
    ((Share.ChunkMaker.new rows.length chunk).all rows.length)

/-! ## the limit -/

/-- The largest index of the expansion in a file fits in an `int`. -/
def Fits (lmax mmax : Int) : Prop := lmax * lmax + lmax + mmax + 1 ≤ 2147483647

instance (lmax mmax : Int) : Decidable (Fits lmax mmax) := by unfold Fits; infer_instance

theorem Fits.lmax_le {lmax mmax : Int} (h : Fits lmax mmax) (h0 : 0 ≤ mmax) (hm : mmax ≤ lmax) : lmax ≤ 46340 := by
  unfold Fits at h
  by_contra hc
  nlinarith [show 46341 ≤ lmax by omega]

theorem Fits.tri {lmax mmax : Int} (h : Fits lmax mmax) (h0 : 0 ≤ mmax) (hm : mmax ≤ lmax) :
    (mmax + 1) * (2 * lmax + 2 - mmax) ≤ 2147483647 := by
  have hl := h.lmax_le h0 hm
  unfold Fits at h
  rcases lt_or_eq_of_le hl with hl | rfl
  · nlinarith [mul_nonneg (show 0 ≤ lmax - mmax by omega) (show 0 ≤ lmax + 1 - mmax by omega),
      mul_nonneg (show 0 ≤ lmax by omega) (show 0 ≤ 46339 - lmax by omega)]
  · have : mmax ≤ 41706 := by omega
    nlinarith [mul_nonneg (show 0 ≤ 41706 - mmax by omega) (show 0 ≤ 92681 - 41706 - mmax by omega)]

theorem tval32_eq {lmax : Int} (h0 : 0 ≤ lmax) (h : lmax ≤ 1000000000) : tval32 lmax = ok (2 * lmax + 1) := by
  unfold tval32
  rw [i32_ok (by omega) (by omega), ok_bind, i32_ok (by omega) (by omega)]

theorem numAlms32_eq {lmax mmax : Int} (h : Fits lmax mmax) (h0 : 0 ≤ mmax) (hm : mmax ≤ lmax) :
    numAlms32 lmax mmax = numAlms lmax mmax := by
  have hl := h.lmax_le h0 hm
  have ht := h.tri h0 hm
  have e1 : 0 ≤ (mmax + 1) * (lmax - mmax) := mul_nonneg (by omega) (by omega)
  have e2 : 0 ≤ (mmax + 1) * (mmax + 2) := mul_nonneg (by omega) (by omega)
  have e3 : (mmax + 1) * (2 * lmax + 2 - mmax) = (mmax + 1) * (mmax + 2) + 2 * ((mmax + 1) * (lmax - mmax)) := by ring
  unfold numAlms32 numAlms
  rw [if_pos hm, if_pos hm, i32_ok (by omega) (by omega), ok_bind, i32_ok (by omega) (by omega), ok_bind,
    i32_ok (by omega) (by omega), ok_bind, i32_ok (by omega) (by omega), ok_bind, i32_ok (by omega) (by omega), ok_bind]
  rw [Int.tdiv_eq_ediv_of_nonneg e2, i32_ok (by omega) (by omega)]

theorem index32_eq {lmax mmax l m : Int} (h : Fits lmax mmax) (hmm : mmax ≤ lmax) (hv : Valid lmax mmax l m) :
    index32 lmax l m = ok (index lmax l m) := by
  obtain ⟨v1, v2, v3, v4⟩ := hv
  have hl := h.lmax_le (by omega) (by omega)
  have ht := h.tri (by omega) (by omega)
  have e1 : 0 ≤ m * (2 * lmax + 1 - m) := mul_nonneg v1 (by omega)
  have e2 : m * (2 * lmax + 1 - m) ≤ mmax * (2 * lmax + 1 - mmax) := by
    nlinarith [mul_nonneg (show 0 ≤ mmax - m by omega) (show 0 ≤ 2 * lmax + 1 - mmax - m by omega)]
  have e3 : (mmax + 1) * (2 * lmax + 2 - mmax) = mmax * (2 * lmax + 1 - mmax) + 2 * lmax + 2 := by ring
  unfold index32
  rw [tval32_eq (by omega) (by omega), ok_bind, i32_ok (by omega) (by omega), ok_bind, i32_ok (by omega) (by omega),
    ok_bind, i32_ok (by omega) (by omega)]
  rfl

theorem maxIndex32_eq {lmax mmax : Int} (h : Fits lmax mmax) (h0 : 0 ≤ mmax) (hm : mmax ≤ lmax) :
    maxIndex32 lmax mmax = ok (lmax * lmax + lmax + mmax + 1) := by
  have e : 0 ≤ lmax * lmax := mul_nonneg (by omega) (by omega)
  unfold Fits at h
  unfold maxIndex32
  rw [i32_ok (by omega) (by omega), ok_bind, i32_ok (by omega) (by omega), ok_bind, i32_ok (by omega) (by omega), ok_bind,
    i32_ok (by omega) (by omega)]

theorem mkZero32_eq (zero : α) {lmax mmax : Int} (h : Fits lmax mmax) (h0 : 0 ≤ mmax) (hm : mmax ≤ lmax) :
    mkZero32 zero lmax mmax = mkZero zero lmax mmax := by
  have hl := h.lmax_le h0 hm
  unfold mkZero32 mkZero
  rw [tval32_eq (by omega) (by omega), ok_bind, numAlms32_eq h h0 hm]

theorem decode32_eq {idx : Int} (h : -2147483648 ≤ idx - 1) (h2 : idx ≤ 2147483647) : decode32 idx = decode idx := by
  unfold decode32 decode
  rw [i32_ok (by omega) (by omega), ok_bind]
  unfold isqrt
  split
  · rfl
  · rename_i hn
    have hs := Nat.sqrt_le (idx - 1).toNat
    have hs' : ((Nat.sqrt (idx - 1).toNat : ℕ) : Int) * (Nat.sqrt (idx - 1).toNat : ℕ) ≤ idx - 1 := by
      have : ((Nat.sqrt (idx - 1).toNat * Nat.sqrt (idx - 1).toNat : ℕ) : Int) ≤ ((idx - 1).toNat : ℕ) := by
        exact_mod_cast hs
      push_cast at this
      omega
    generalize hq : ((Nat.sqrt (idx - 1).toNat : ℕ) : Int) = q at hs'
    have q0 : 0 ≤ q := by omega
    have q1 : 0 ≤ q * q := mul_nonneg q0 q0
    have q2 : q ≤ q * q ∨ q = 0 := by
      rcases eq_or_lt_of_le q0 with h | h
      · right; omega
      · left; nlinarith
    simp only [ok_bind]
    rw [i32_ok (by omega) (by omega), ok_bind, i32_ok (by omega) (by omega), ok_bind, i32_ok (by omega) (by omega), ok_bind,
      i32_ok (by omega) (by omega), ok_bind]

/-- The indices of a table are `int` (the column is read into an `arr<int>`, alm_fitsio.cc:100, 111); `INT_MIN` is left
out because the subtraction of 1 already overflows. -/
def IntRows (rows : List (Int × α)) : Prop := ∀ r ∈ rows, -2147483648 < r.1 ∧ r.1 ≤ 2147483647

theorem put32_eq {lmax mmax : Int} (h : Fits lmax mmax) (hmm : mmax ≤ lmax) (a : Alm α) (hl : a.lmax = lmax) {l m : Int}
    (hv : Valid lmax mmax l m) (v : α) : a.put32 l m v = a.put l m v := by
  unfold Alm.put32 Alm.put
  rw [hl, index32_eq h hmm hv, ok_bind]

theorem put_lmax {a b : Alm α} {l m : Int} {v : α} (h : a.put l m v = ok b) : b.lmax = a.lmax := by
  unfold Alm.put at h
  obtain ⟨d, _, h⟩ := bind_eq_ok.mp h
  injection h with h
  rw [← h]

theorem readRow32_eq {lmax mmax : Int} (h : Fits lmax mmax) (hmm : mmax ≤ lmax) (a : Alm α)
    (hl : a.lmax = lmax) (row : Int × α) (h1 : -2147483648 < row.1) (h2 : row.1 ≤ 2147483647) :
    readRow32 (lmax * lmax + lmax + mmax + 1) lmax mmax a row = readRow lmax mmax a row ∧
      ∀ b, readRow lmax mmax a row = ok b → b.lmax = lmax := by
  unfold readRow32 readRow
  rw [decode32_eq (by omega) h2]
  dsimp only
  split
  · exact ⟨rfl, fun b e => by injection e with e; rw [← e]; exact hl⟩
  · cases hd : decode row.1 with
    | ok p =>
      obtain ⟨l, m⟩ := p
      simp only [ok_bind]
      split
      · exact ⟨rfl, fun b e => by cases e⟩
      · rename_i hm
        split
        · exact ⟨rfl, fun b e => by cases e⟩
        · rename_i hlm
          split
          · rename_i hc
            have e := put32_eq h hmm a hl (l := l) (m := m) ⟨by omega, hc.2, by omega, hc.1⟩ row.2
            exact ⟨e, fun b hb => by rw [put_lmax hb, hl]⟩
          · exact ⟨rfl, fun b e => by injection e with e; rw [← e]; exact hl⟩
    | throw s => exact ⟨rfl, fun b e => by cases e⟩
    | ub s => exact ⟨rfl, fun b e => by cases e⟩

theorem foldRes_congr_inv {β σ : Type} (f g : σ → β → Res σ) (P : σ → Prop) (xs : List β) :
    (∀ x ∈ xs, ∀ s, P s → f s x = g s x ∧ ∀ t, g s x = ok t → P t) → ∀ s, P s →
      foldRes f s xs = foldRes g s xs ∧ ∀ t, foldRes g s xs = ok t → P t := by
  induction xs with
  | nil => intro _ s hs; exact ⟨rfl, fun t e => by simp at e; rw [← e]; exact hs⟩
  | cons x xs ih =>
    intro hx s hs
    rw [foldRes_cons, foldRes_cons]
    obtain ⟨e, hp⟩ := hx x (by simp) s hs
    rw [e]
    cases hg : g s x with
    | ok t =>
      exact ih (fun y hy => hx y (by simp [hy])) t (hp t hg)
    | throw m => exact ⟨rfl, fun t e => by cases e⟩
    | ub m => exact ⟨rfl, fun t e => by cases e⟩

/-- **C25 (refinement).** For every expansion whose largest file index fits in an `int`, and every table of `int` indices
(well-formed or not), the reader computed in `int` arithmetic behaves exactly like the reader computed with unbounded
integers, so every theorem about `readAlm` (C27, C28) holds for the code as compiled. -/
theorem C25_read_refines_partial (zero : α) (rows : List (Int × α)) (hr : IntRows rows) (chunk : Nat) (lmax mmax : Int)
    (h0 : 0 ≤ mmax) (hm : mmax ≤ lmax) (h : lmax * lmax + lmax + mmax + 1 ≤ 2147483647) :
    readAlm32 zero rows chunk lmax mmax = readAlm zero rows chunk lmax mmax := by
  have hF : Fits lmax mmax := h
  unfold readAlm32 readAlm
  rw [mkZero32_eq zero hF h0 hm, maxIndex32_eq hF h0 hm]
  obtain ⟨a, ha, -⟩ : ∃ a : Alm α, mkZero zero lmax mmax = ok a ∧ True := by
    unfold mkZero
    rw [numAlms_eq hm]
    simp only [ok_bind]
    have hn : ¬ (index lmax lmax mmax + 1 < 0) := by
      have := index_nonneg (l := lmax) (m := mmax) h0 hm le_rfl
      omega
    rw [if_neg hn]
    exact ⟨_, rfl, trivial⟩
  have hal : a.lmax = lmax := by
    unfold mkZero at ha
    obtain ⟨n, _, ha⟩ := bind_eq_ok.mp ha
    split at ha
    · cases ha
    · injection ha with ha; rw [← ha]
  rw [ha]
  simp only [ok_bind]
  refine (foldRes_congr_inv _ _ (fun a : Alm α => a.lmax = lmax) _ (fun p _ s hs => ?_) a hal).1
  refine foldRes_congr_inv _ _ (fun a : Alm α => a.lmax = lmax) _ (fun r hrm t ht => ?_) s hs
  have := hr r (List.mem_of_mem_drop (List.mem_of_mem_take hrm))
  exact readRow32_eq hF hm t ht r this.1 this.2

/-- **C25 (access).** Under the same condition every access to a coefficient that exists computes the same element as with
unbounded integers. -/
theorem C25_index_refines_partial (lmax mmax l m : Int) (hm : mmax ≤ lmax) (hv : Valid lmax mmax l m)
    (h : lmax * lmax + lmax + mmax + 1 ≤ 2147483647) :
    index32 lmax l m = ok (index lmax l m) ∧ numAlms32 lmax mmax = numAlms lmax mmax :=
  ⟨index32_eq h hm hv, numAlms32_eq h (by have := hv.1; have := hv.2.1; omega) hm⟩

theorem maxIndex32_ub {lmax mmax : Int} (h : ¬ Fits lmax mmax) (h0 : 0 ≤ mmax) (hm : mmax ≤ lmax) :
    maxIndex32 lmax mmax = ub "signed integer overflow" := by
  have e : 0 ≤ lmax * lmax := mul_nonneg (by omega) (by omega)
  unfold Fits at h
  unfold maxIndex32
  by_cases h1 : lmax * lmax ≤ 2147483647
  · rw [i32_ok (by omega) h1, ok_bind]
    by_cases h2 : lmax * lmax + lmax ≤ 2147483647
    · rw [i32_ok (by omega) h2, ok_bind]
      by_cases h3 : lmax * lmax + lmax + mmax ≤ 2147483647
      · rw [i32_ok (by omega) h3, ok_bind, i32_ub (by omega)]
      · rw [i32_ub (by omega), ub_bind]
    · rw [i32_ub (by omega), ub_bind]
  · rw [i32_ub (by omega), ub_bind]

theorem i32_cases (x : Int) : i32 x = ok x ∨ i32 x = ub "signed integer overflow" := by
  unfold i32; split <;> simp

/-- **C25 (limit is exact).** For every other pair of limits reading overflows an `int`, whatever the table contains. -/
theorem C25_read_overflow (zero : α) (rows : List (Int × α)) (chunk : Nat) (lmax mmax : Int)
    (h0 : 0 ≤ mmax) (hm : mmax ≤ lmax) (h : 2147483647 < lmax * lmax + lmax + mmax + 1) :
    (readAlm32 zero rows chunk lmax mmax).IsUB := by
  have hF : ¬ Fits lmax mmax := by unfold Fits; omega
  unfold readAlm32
  have hz : (∃ a : Alm α, mkZero32 zero lmax mmax = ok a) ∨ ∃ s, mkZero32 zero lmax mmax = ub s := by
    unfold mkZero32 tval32 numAlms32
    rw [if_pos hm]
    rcases i32_cases (2 * lmax) with e | e <;> rw [e]
    · simp only [ok_bind]
      rcases i32_cases (2 * lmax + 1) with e | e <;> rw [e]
      · simp only [ok_bind]
        rcases i32_cases (mmax + 1) with e | e <;> rw [e]
        · simp only [ok_bind]
          rcases i32_cases (mmax + 2) with e | e <;> rw [e]
          · simp only [ok_bind]
            rcases i32_cases ((mmax + 1) * (mmax + 2)) with e | e <;> rw [e]
            · simp only [ok_bind]
              rcases i32_cases (lmax - mmax) with e | e <;> rw [e]
              · simp only [ok_bind]
                rcases i32_cases ((mmax + 1) * (lmax - mmax)) with e | e <;> rw [e]
                · simp only [ok_bind]
                  have e1 : 0 ≤ (mmax + 1) * (lmax - mmax) := mul_nonneg (by omega) (by omega)
                  have e2 : 0 ≤ (mmax + 1) * (mmax + 2) := mul_nonneg (by omega) (by omega)
                  rw [Int.tdiv_eq_ediv_of_nonneg e2]
                  rcases i32_cases ((mmax + 1) * (mmax + 2) / 2 + (mmax + 1) * (lmax - mmax)) with e | e <;> rw [e]
                  · simp only [ok_bind]
                    rw [if_neg (by omega)]
                    exact Or.inl ⟨_, rfl⟩
                  · exact Or.inr ⟨_, rfl⟩
                · exact Or.inr ⟨_, rfl⟩
              · exact Or.inr ⟨_, rfl⟩
            · exact Or.inr ⟨_, rfl⟩
          · exact Or.inr ⟨_, rfl⟩
        · exact Or.inr ⟨_, rfl⟩
      · exact Or.inr ⟨_, rfl⟩
    · exact Or.inr ⟨_, rfl⟩
  rcases hz with ⟨a, e⟩ | ⟨s, e⟩
  · rw [e, ok_bind, maxIndex32_ub hF h0 hm]
    trivial
  · rw [e]
    trivial

/-- **C25 (sky).** For a sky (`mmax = lmax`) the boundary is `lmax = 46339`: up to there nothing overflows, above it
reading is undefined, although the C interface accepts `lmax` up to `LMAXMAX = 100000` (src/cconviqt.h:9). -/
theorem C25_sky_limit (zero : α) (chunk : Nat) (lmax : Int) (h0 : 0 ≤ lmax) :
    (∀ rows, IntRows rows → readAlm32 zero rows chunk lmax lmax = readAlm zero rows chunk lmax lmax) ↔ lmax ≤ 46339 := by
  constructor
  · intro h
    by_contra hc
    have hov : 2147483647 < lmax * lmax + lmax + lmax + 1 := by nlinarith [show 46340 ≤ lmax by omega]
    have h1 := C25_read_overflow zero [] chunk lmax lmax h0 le_rfl hov
    rw [h [] (by intro r hr; cases hr)] at h1
    have h2 : readAlm zero [] chunk lmax lmax = mkZero zero lmax lmax := by
      unfold readAlm
      cases mkZero zero lmax lmax with
      | ok a => rfl
      | throw s => rfl
      | ub s => rfl
    rw [h2] at h1
    unfold mkZero at h1
    rw [numAlms_eq le_rfl] at h1
    simp only [ok_bind] at h1
    have hn : ¬ (index lmax lmax lmax + 1 < 0) := by
      have := index_nonneg (l := lmax) (m := lmax) h0 le_rfl le_rfl
      omega
    rw [if_neg hn] at h1
    exact h1
  · intro h rows hr
    exact C25_read_refines_partial zero rows hr chunk lmax lmax h0 le_rfl
      (by nlinarith [mul_nonneg h0 (show 0 ≤ 46339 - lmax by omega)])

/-- **C25 (violation).** Every band limit in `46341 … LMAXMAX` overflows for every `mmax`, e.g. for the default beam. -/
theorem C25_LMAXMAX_overflow (zero : α) (rows : List (Int × α)) (chunk : Nat) (lmax mmax : Int) (h0 : 0 ≤ mmax)
    (hm : mmax ≤ lmax) (h1 : 46341 ≤ lmax) (_h2 : lmax ≤ 100000) :
    (readAlm32 zero rows chunk lmax mmax).IsUB :=
  C25_read_overflow zero rows chunk lmax mmax h0 hm (by nlinarith)

/-- The number of floats that `beam::read` and `sky::read` broadcast per component, in `long`,
src/conviqt_io.cpp:60 and :150 (the sky formula is the case `mmax = lmax`). -/
def bcastCount (lmax mmax : Int) : Int := (mmax + 1) * (mmax + 2) + 2 * (mmax + 1) * (lmax - mmax)

/-- **C25 (broadcast).** Whenever reading does not overflow, the number of broadcast floats is twice the number of stored
coefficients (all of them, no more) and fits in the `int` count of `MPI_Bcast`. -/
theorem C25_bcast_count_partial (lmax mmax : Int) (h0 : 0 ≤ mmax) (hm : mmax ≤ lmax)
    (h : lmax * lmax + lmax + mmax + 1 ≤ 2147483647) :
    ∃ n, numAlms32 lmax mmax = ok n ∧ bcastCount lmax mmax = 2 * n ∧ bcastCount lmax mmax ≤ 2147483647 ∧
      (mmax = lmax → (lmax + 1) * (lmax + 2) = bcastCount lmax mmax) := by
  have hF : Fits lmax mmax := h
  refine ⟨_, (numAlms32_eq hF h0 hm).trans (if_pos hm), ?_, ?_, ?_⟩
  · unfold bcastCount
    have e : (mmax + 1) * (mmax + 2) % 2 = 0 := by
      rw [show (mmax + 1) * (mmax + 2) = (mmax + 1) * (mmax + 1 + 1) by ring]
      exact Int.even_iff.mp (Int.even_mul_succ_self _)
    have e2 : (mmax + 1) * (lmax - mmax) * 2 = 2 * (mmax + 1) * (lmax - mmax) := by ring
    omega
  · have := hF.tri h0 hm
    unfold bcastCount
    nlinarith
  · intro e
    subst e
    unfold bcastCount
    ring

/-- The conditions are met: the default limits of the convolver, and a table with a repeated and an out-of-range row. -/
example : Fits 5000 14 ∧ Valid 5000 14 4000 14 ∧ IntRows [((2 : Int), (7 : Int)), (2, 8), (-3, 1)] := by
  refine ⟨by decide, by unfold Valid; omega, ?_⟩
  intro r hr
  simp only [List.mem_cons, List.not_mem_nil, or_false] at hr
  rcases hr with rfl | rfl | rfl <;> simp

/-- A beam that the reader accepts with fewer than 2^31 coefficients and that overflows in the element index. -/
example : index32 100000 100000 12000 = ub "signed integer overflow" ∧ numAlms32 100000 12000 = ok 1128106001 := by
  decide

/-- C25 as stated, for reading: no band limit up to `LMAXMAX = 100000` makes the `int` arithmetic overflow. -/
def C25_Full : Prop :=
  ∀ (rows : List (Int × Int)) (chunk : Nat) (lmax mmax : Int), IntRows rows → 0 ≤ mmax → mmax ≤ lmax → lmax ≤ 100000 →
    readAlm32 0 rows chunk lmax mmax = readAlm 0 rows chunk lmax mmax

theorem C25_full_refuted : ¬ C25_Full := by
  intro h
  have := (C25_sky_limit (0 : Int) 1 100000 (by norm_num)).mp (fun rows hr => h rows 1 100000 100000 hr (by norm_num) le_rfl le_rfl)
  norm_num at this

end Verif.Harm
