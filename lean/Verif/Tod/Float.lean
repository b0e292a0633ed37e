import Verif.Tod.Witness
import Mathlib.Analysis.Real.Pi.Bounds

/-!
# Rounded arithmetic

The theorems about `convolve` assume laws (`Laws`, `TagLaw`, definedness of the sample values) instead of
exact arithmetic.  Here they are derived for arithmetic in which the result of every operation is
rounded: any monotone, idempotent rounding function that is exact on small (half-)integers and for which the
rounded `pi` is twice the rounded `pi/2`.  Round-to-nearest to binary64 is such a function for
`N = 2^52`, as long as no operation overflows (overflow, infinities and NaN are not modelled here).
-/

namespace Verif.Tod
open Verif Res Spmd

/-- Numbers whose arithmetic is rounded by `rnd`. -/
structure FP (rnd : ℝ → ℝ) where
  val : ℝ

open Classical in
/-- Rounded arithmetic; comparisons and `fmod` are exact (as in IEEE 754), elementary functions are the
rounded real functions. -/
noncomputable instance (rnd : ℝ → ℝ) : Arith (FP rnd) where
  add := fun a b => ⟨rnd (a.val + b.val)⟩
  sub := fun a b => ⟨rnd (a.val - b.val)⟩
  mul := fun a b => ⟨rnd (a.val * b.val)⟩
  div := fun a b => ⟨rnd (a.val / b.val)⟩
  fmod := fun x y => ⟨x.val - y.val * (truncR (x.val / y.val) : ℝ)⟩
  lt := fun a b => decide (a.val < b.val)
  le := fun a b => decide (a.val ≤ b.val)
  eqb := fun a b => decide (a.val = b.val)
  ofInt := fun i => ⟨rnd i⟩
  trunc := fun x => some (truncR x.val)
  sin := fun x => ⟨rnd (Real.sin x.val)⟩
  cos := fun x => ⟨rnd (Real.cos x.val)⟩
  pi := ⟨rnd Real.pi⟩
  halfpi := ⟨rnd (Real.pi / 2)⟩
  half := ⟨1 / 2⟩

/-- A rounding function that is exact for small integers and half-integers. -/
structure Rounding (rnd : ℝ → ℝ) (N : ℕ) : Prop where
  mono : Monotone rnd
  idem : ∀ x, rnd (rnd x) = rnd x
  int_exact : ∀ i : ℤ, |i| ≤ N → rnd i = i
  half_exact : ∀ i : ℕ, i < N → rnd (i + 1 / 2) = i + 1 / 2
  pi_twice : rnd Real.pi = 2 * rnd (Real.pi / 2)

/-- Exact arithmetic is the special case `rnd = id`. -/
theorem rounding_id (N : ℕ) : Rounding id N :=
  ⟨monotone_id, fun _ => rfl, fun _ _ => rfl, fun _ _ => rfl, by simp; ring⟩

/-- A non-trivial rounding: down to multiples of 1/2. -/
example (N : ℕ) : Rounding (fun x => (⌊2 * x⌋ : ℝ) / 2) N where
  mono := fun x y h => by
    have : ⌊2 * x⌋ ≤ ⌊2 * y⌋ := Int.floor_le_floor (by linarith)
    have : (⌊2 * x⌋ : ℝ) ≤ ⌊2 * y⌋ := by exact_mod_cast this
    simp only; linarith
  idem := fun x => by
    have : 2 * ((⌊2 * x⌋ : ℝ) / 2) = ((⌊2 * x⌋ : ℤ) : ℝ) := by ring
    simp only [this, Int.floor_intCast]
  int_exact := fun i _ => by
    have : 2 * (i : ℝ) = ((2 * i : ℤ) : ℝ) := by push_cast; ring
    simp only [this, Int.floor_intCast]; push_cast; ring
  half_exact := fun i _ => by
    have : 2 * ((i : ℝ) + 1 / 2) = ((2 * i + 1 : ℤ) : ℝ) := by push_cast; ring
    simp only [this, Int.floor_intCast]; push_cast; ring
  pi_twice := by
    have h1 := Real.pi_gt_three
    have h2 := Real.pi_lt_d2
    have a : ⌊2 * Real.pi⌋ = 6 := by rw [Int.floor_eq_iff]; norm_num at *; constructor <;> linarith
    have b : ⌊2 * (Real.pi / 2)⌋ = 3 := by rw [Int.floor_eq_iff]; norm_num at *; constructor <;> linarith
    simp only [a, b]; norm_num

namespace FP
variable {rnd : ℝ → ℝ}
@[simp] theorem add_val (a b : FP rnd) : (Arith.add a b).val = rnd (a.val + b.val) := rfl
@[simp] theorem sub_val (a b : FP rnd) : (Arith.sub a b).val = rnd (a.val - b.val) := rfl
@[simp] theorem mul_val (a b : FP rnd) : (Arith.mul a b).val = rnd (a.val * b.val) := rfl
@[simp] theorem div_val (a b : FP rnd) : (Arith.div a b).val = rnd (a.val / b.val) := rfl
@[simp] theorem ofInt_val (i : ℤ) : (Arith.ofInt i : FP rnd).val = rnd i := rfl
@[simp] theorem pi_val : (Arith.pi : FP rnd).val = rnd Real.pi := rfl
@[simp] theorem halfpi_val : (Arith.halfpi : FP rnd).val = rnd (Real.pi / 2) := rfl
@[simp] theorem half_val : (Arith.half : FP rnd).val = 1 / 2 := rfl
theorem toInt_eq (x : FP rnd) : toInt x = ok (truncR x.val) := rfl
@[simp] theorem lt_iff (a b : FP rnd) : Arith.lt a b = true ↔ a.val < b.val := by
  show decide _ = true ↔ _; simp
@[simp] theorem lt_false (a b : FP rnd) : Arith.lt a b = false ↔ b.val ≤ a.val := by
  show decide _ = false ↔ _; simp
@[simp] theorem le_iff (a b : FP rnd) : Arith.le a b = true ↔ a.val ≤ b.val := by
  show decide _ = true ↔ _; simp
@[simp] theorem eqb_iff (a b : FP rnd) : Arith.eqb a b = true ↔ a.val = b.val := by
  show decide _ = true ↔ _; simp
end FP

open FP

variable {rnd : ℝ → ℝ} {N : ℕ}

theorem Rounding.zero (h : Rounding rnd N) : rnd 0 = 0 := by
  have := h.int_exact 0 (by simp); simpa using this

theorem Rounding.nonneg (h : Rounding rnd N) {x : ℝ} (hx : 0 ≤ x) : 0 ≤ rnd x := by
  rw [← h.zero]; exact h.mono hx

theorem Rounding.nonpos (h : Rounding rnd N) {x : ℝ} (hx : x ≤ 0) : rnd x ≤ 0 := by
  rw [← h.zero]; exact h.mono hx

theorem tagLaw_float (h : Rounding rnd N) : TagLaw (FP rnd) N := by
  intro i hi
  show some (truncR (rnd (rnd ((i : ℤ) : ℝ) + 1 / 2))) = _
  rw [h.int_exact i (by simp; omega)]
  have : rnd (((i : ℤ) : ℝ) + 1 / 2) = (i : ℝ) + 1 / 2 := by
    rw [← h.half_exact i hi]; simp
  rw [this, truncR_nonneg (by positivity)]
  congr 1
  rw [Int.floor_eq_iff]
  push_cast
  constructor <;> linarith

theorem foldGt_float (t : FP rnd) : foldGt t = if rnd (Real.pi / 2) < t.val then ⟨rnd (rnd Real.pi - t.val)⟩ else t := by
  unfold foldGt
  by_cases h : rnd (Real.pi / 2) < t.val
  · rw [if_pos h, if_pos (by rw [FP.lt_iff]; exact h)]; rfl
  · rw [if_neg h, if_neg (by rw [FP.lt_iff]; exact h)]

theorem foldGt_float_le (h : Rounding rnd N) (t : FP rnd) : (foldGt t).val ≤ rnd (Real.pi / 2) := by
  rw [foldGt_float]
  split
  · rename_i ht
    simp only
    rw [← h.idem (Real.pi / 2)]
    apply h.mono
    rw [h.pi_twice]; linarith
  · rename_i ht; exact not_lt.mp ht

theorem invDtheta_float_nonpos (h : Rounding rnd N) (c : Cfg) : (c.invDtheta : FP rnd).val ≤ 0 := by
  have hd : (c.dtheta : FP rnd).val ≤ 0 := by
    unfold Cfg.dtheta
    simp only [div_val, sub_val, ofInt_val, pi_val]
    apply h.nonpos
    apply div_nonpos_of_nonpos_of_nonneg
    · apply h.nonpos
      have := h.nonneg Real.pi_pos.le
      have h0 := h.zero
      simp only [Int.cast_zero, h0]; linarith
    · apply h.nonneg
      have : (0:ℤ) ≤ (c.ntheta : ℤ) - c.margin := by unfold Cfg.ntheta; push_cast; omega
      exact_mod_cast this
  unfold Cfg.invDtheta
  simp only [div_val, ofInt_val]
  apply h.nonpos
  apply div_nonpos_of_nonneg_of_nonpos _ hd
  apply h.nonneg; simp

theorem betaToItheta_float (c : Cfg) (t : FP rnd) : ∃ i, betaToItheta c t = ok i := by
  unfold betaToItheta
  simp only [toInt_eq, ok_bind]
  exact ⟨_, rfl⟩

/-- Environment assumptions, as in exact arithmetic. -/
structure EnvOKF (e : Env (FP rnd)) : Prop where
  sort : ∀ l : List (FP rnd × Nat), (e.srt l).Perm l ∧ (e.srt l).Pairwise (fun p q => p.1.val ≤ q.1.val)
  sched : ∀ l, (e.sched l).Perm l
  nan : ∃ v, e.nan = ok v
  verb : SameVerb e.verb
  ring_len : ∀ h i, (e.ring h i).length = e.cfg.bufsize
  /-- every rank computes the rings it owns, whatever they are (from the kernel: `Num.kernelRings_eq`) -/
  kern : ∀ me mine, e.kern me mine = ok (mine.map (e.ring false), mine.map (e.ring true))

/-- The order laws used for `convolve` hold in rounded arithmetic. -/
theorem laws_float (hr : Rounding rnd N) {e : Env (FP rnd)} (h : EnvOKF e) : Laws e (fun _ => True) where
  verb := h.verb
  halfpi := trivial
  fold := fun _ _ => trivial
  fold_le := fun t _ => by rw [FP.lt_false]; exact foldGt_float_le hr t
  asymm := fun a b _ _ h => by rw [FP.lt_iff] at h; rw [FP.lt_false]; exact h.le
  cotrans := fun a b c _ _ _ h => by
    simp only [FP.lt_iff] at h ⊢
    rcases lt_or_ge a.val c.val with h1 | h1
    · exact Or.inl h1
    · exact Or.inr (lt_of_le_of_lt h1 h)
  sort := fun l _ => ⟨(h.sort l).1, (h.sort l).2.imp (fun hab => by rw [FP.lt_false]; exact hab)⟩
  sched := h.sched
  nan := h.nan
  ring_len := h.ring_len
  kern := h.kern
  itheta_ok := fun t _ => betaToItheta_float e.cfg t
  itheta_anti := by
    intro a b _ _ ha hb hab i j hi hj
    rw [FP.lt_false] at ha hb hab
    rw [halfpi_val] at ha hb
    have fa : foldGt a = a := by rw [foldGt_float, if_neg (not_lt.mpr ha)]
    have fb : foldGt b = b := by rw [foldGt_float, if_neg (not_lt.mpr hb)]
    unfold betaToItheta at hi hj
    simp only [toInt_eq, ok_bind, fa, fb, sub_val, mul_val] at hi hj
    have hm : truncR (rnd (rnd (b.val - (e.cfg.theta0 : FP rnd).val) * (e.cfg.invDtheta : FP rnd).val)) ≤
        truncR (rnd (rnd (a.val - (e.cfg.theta0 : FP rnd).val) * (e.cfg.invDtheta : FP rnd).val)) := by
      apply truncR_mono
      apply hr.mono
      apply mul_le_mul_of_nonpos_right
      · apply hr.mono; linarith
      · exact invDtheta_float_nonpos hr e.cfg
    injection hi with hi
    injection hj with hj
    subst hi; subst hj
    split_ifs <;> omega

/-! ## the value of a sample is defined -/

theorem truncR_sub (x : ℝ) : (0 ≤ x → 0 ≤ x - truncR x ∧ x - truncR x < 1) ∧
    (x < 0 → x - truncR x ≤ 0 ∧ -1 < x - truncR x) := by
  refine ⟨fun h => ?_, fun h => ?_⟩
  · rw [truncR_nonneg h]
    have h1 := Int.floor_le x
    have h2 := Int.lt_floor_add_one x
    constructor <;> linarith
  · have ht : truncR x = ⌈x⌉ := if_neg (by linarith)
    rw [ht]
    have h1 := Int.le_ceil x
    have h2 := Int.ceil_lt_add_one x
    constructor <;> linarith

/-- C42: also in rounded arithmetic `fmodulo` stays in `[0, v2)` (`v2` a representable positive number). -/
theorem C42_fmodulo_rounded (h : Rounding rnd N) (v1 v2 : FP rnd) (hpos : 0 < v2.val) (hrep : rnd v2.val = v2.val) :
    0 ≤ (fmodulo v1 v2).val ∧ (fmodulo v1 v2).val < v2.val := by
  have hf : (Arith.fmod v1 v2).val = v2.val * (v1.val / v2.val - truncR (v1.val / v2.val)) := by
    show v1.val - v2.val * _ = _
    rw [mul_sub, mul_div_cancel₀ _ hpos.ne']
  obtain ⟨t1, t2⟩ := truncR_sub (v1.val / v2.val)
  unfold fmodulo
  have h0 : (Arith.ofInt 0 : FP rnd).val = 0 := by simp [h.zero]
  split
  · rename_i hv
    rw [FP.le_iff, h0] at hv
    split
    · rename_i hlt; rw [FP.lt_iff] at hlt; exact ⟨hv, hlt⟩
    · obtain ⟨a, b⟩ := t1 (by positivity)
      rw [hf]
      constructor
      · positivity
      · nlinarith
  · rename_i hv
    rw [FP.le_iff, h0, not_le] at hv
    obtain ⟨a, b⟩ := t2 (div_neg_of_neg_of_pos hv hpos)
    simp only
    split
    · rw [h0]; exact ⟨le_rfl, hpos⟩
    · rename_i hne
      rw [FP.eqb_iff] at hne
      refine ⟨?_, lt_of_le_of_ne ?_ hne⟩
      · rw [add_val, hf]; apply h.nonneg; nlinarith
      · rw [add_val, hf, ← hrep]; apply h.mono; rw [hrep]; nlinarith

theorem forN_total {σ : Type} {n : Nat} {f : Nat → σ → Res σ} (h : ∀ i t, i < n → ∃ t', f i t = ok t') (s : σ) :
    ∃ t, forN n f s = ok t := by
  obtain ⟨t, ht, _⟩ := forN_inv n f s (fun _ _ => True) trivial
    (fun i t hi _ => by obtain ⟨t', h'⟩ := h i t hi; exact ⟨t', h', trivial⟩)
  exact ⟨t, ht⟩

/-- For any arithmetic: if the ring index and the longitude cell are defined, so is the sample value. -/
theorem sampleSpec_defined {F : Type} [Arith F] (e : Env F) (hord : e.cfg.order ≤ e.cfg.nphi)
    (hring : ∀ h i, (e.ring h i).length = e.cfg.bufsize) {phi theta psi : F}
    (hit : ∃ i, betaToItheta e.cfg (foldGt theta) = ok i)
    (hcell : ∃ i f, phiCell e.cfg phi = ok (i, f) ∧ 0 ≤ i ∧ i < e.cfg.nphi) :
    ∃ v, sampleSpec e phi theta psi = ok v := by
  obtain ⟨it0, hit⟩ := hit
  obtain ⟨ip, fr, hcell, c0, c1⟩ := hcell
  unfold sampleSpec
  simp only [hit, ok_bind]
  unfold sampleValue
  refine forN_total ?_ _
  intro k acc hk
  unfold accum
  simp only [weightNcm_eq, ok_bind, hcell]
  rw [show (it0 + (k : ℤ) - it0) = (k : ℤ) by ring, rd_nat (by simpa using hk)]
  simp only [ok_bind]
  refine forN_total ?_ _
  intro j acc hj
  rw [rd_nat (by simpa using hj)]
  simp only [ok_bind]
  obtain ⟨s0, s1, _⟩ := (C14_stencil e.cfg hord c0 c1).1 j (by unfold Cfg.npoints at hj; omega)
  have hst : (if ip + (j : ℤ) ≥ e.cfg.nphi then ip + (j : ℤ) - e.cfg.nphi else ip + (j : ℤ)) = stencil e.cfg ip j := rfl
  rw [hst]
  generalize stencil e.cfg ip j = p at s0 s1
  have hdot : ∃ x, ringDot e.cfg (e.ring (!(Arith.lt theta Arith.halfpi)) (it0 + (k : ℤ)).toNat) (angles e.cfg.npsi psi) p = ok x := by
    unfold ringDot
    refine forN_total ?_ _
    intro q acc hq
    have hpn : p = (p.toNat : ℤ) := by omega
    have hidx : 2 * (p.toNat * e.cfg.npsi + q) + 1 < (e.ring (!(Arith.lt theta Arith.halfpi)) (it0 + (k : ℤ)).toNat).length := by
      rw [hring]; unfold Cfg.bufsize
      have : (p.toNat + 1) * e.cfg.npsi ≤ e.cfg.nphi * e.cfg.npsi := Nat.mul_le_mul_right _ (by omega)
      rw [Nat.add_mul, Nat.one_mul] at this
      omega
    rw [rd_nat (by simpa [angles] using hq)]
    simp only [ok_bind]
    rw [show (2 * (p * (e.cfg.npsi : ℤ) + (q : ℤ))) = ((2 * (p.toNat * e.cfg.npsi + q) : ℕ) : ℤ) by
        conv_lhs => rw [hpn]
        push_cast; ring]
    rw [rd_nat (by omega)]
    simp only [ok_bind]
    rw [show (((2 * (p.toNat * e.cfg.npsi + q) : ℕ) : ℤ) + 1) = ((2 * (p.toNat * e.cfg.npsi + q) + 1 : ℕ) : ℤ) by push_cast; ring,
      rd_nat hidx]
    exact ⟨_, rfl⟩
  obtain ⟨x, hx⟩ := hdot
  rw [hx]
  exact ⟨_, rfl⟩

theorem phiCell_float (h : Rounding rnd N) (c : Cfg) (hN : c.nphi ≤ N) (hord : c.order / 2 ≤ c.nphi) (phi : FP rnd) :
    ∃ i f, phiCell c phi = ok (i, f) ∧ 0 ≤ i ∧ i < c.nphi := by
  unfold phiCell
  have hn : (Arith.ofInt (c.nphi : ℤ) : FP rnd).val = c.nphi := by
    rw [ofInt_val, h.int_exact _ (by simp; omega)]; simp
  obtain ⟨g0, g1⟩ := C42_fmodulo_rounded h (Arith.sub (Arith.mul phi c.invDphi) (c.phioffset : FP rnd))
    (Arith.ofInt (c.nphi : ℤ)) (by rw [hn]; unfold Cfg.nphi; push_cast; positivity) (by
      rw [ofInt_val, h.idem])
  rw [hn] at g1
  simp only [toInt_eq, ok_bind]
  generalize fmodulo (F := FP rnd) _ _ = f at *
  rw [truncR_nonneg g0]
  have hfl0 : 0 ≤ ⌊f.val⌋ := Int.floor_nonneg.mpr g0
  have hfl1 : ⌊f.val⌋ < c.nphi := Int.floor_lt.mpr (by exact_mod_cast g1)
  refine ⟨_, _, rfl, ?_, ?_⟩
  · unfold Cfg.ioffset; split_ifs <;> omega
  · unfold Cfg.ioffset; split_ifs <;> omega

/-- In rounded arithmetic every job satisfies `Valid` (the hypothesis of C01–C04, C15, C21, C06), if the
interpolation order does not exceed the number of longitudes and the sample number is exactly representable. -/
theorem valid_float (h : Rounding rnd N) {e : Env (FP rnd)} (he : EnvOKF e) (hord : e.cfg.order ≤ e.cfg.nphi)
    (hN : e.cfg.nphi ≤ N) {n : Nat} (hn : 1 ≤ n) (R : Nat → List (Row (FP rnd))) (hR : (samples n R).length ≤ N) :
    Valid e (fun _ => True) n R where
  ranks := hn
  laws := laws_float h he
  tags := fun i hi => tagLaw_float h i (by omega)
  ang := fun _ _ _ _ => trivial
  defined := fun _ _ y _ => sampleSpec_defined e hord he.ring_len (betaToItheta_float _ _)
    (phiCell_float h _ hN (by omega) _)

end Verif.Tod
