import Verif.Py.DataProps

/-! # C54, C55: construction of `Beam` and `Sky` objects on all ranks, and what `get_data` then returns -/

namespace Verif.Py
open Verif Res Verif.Obj Verif.Harm Verif.Fits Verif.Spmd Val

/-- The arrays `out` list the coefficients of the tables of a file up to the limits `L`, `M`, multiplied by `f`
(temperature) or `g` (polarisation) according to their degree. -/
def ListsFile (pol : Bool) (tab : ℕ → Table ℂ) (L M : ℤ) (f g : ℤ → ℝ) (out : List (List ℂ)) : Prop :=
  out.length = (if pol then 3 else 1) ∧
  ∀ k, k < out.length → ((out.getD k []).length : ℤ) = (M + 1) * (M + 2) / 2 + (M + 1) * (L - M) ∧
    ∀ l m, 0 ≤ m → m ≤ M → m ≤ l → l ≤ L →
      ∃ i : ℕ, (i : ℤ) = m * (2 * L + 1 - m) / 2 + l ∧ i < (out.getD k []).length ∧
        (out.getD k []).getD i 0 = lastVal 0 (tab (k + 2)).rows (l * l + l + m + 1) * (((if k = 0 then f l else g l) : ℝ) : ℂ)

theorem lists_unique {L M : ℤ} {a : Alm ℂ} {x : List ℂ} (h : Lists L M a x) {t : Table ℂ} {f : ℤ → ℝ}
    (hg : ∀ l' m', Valid L M l' m' → a.get l' m' = ok (lastVal 0 t.rows (code l' m') * ((f l' : ℝ) : ℂ))) (l m : ℤ) (h0 : 0 ≤ m)
    (h1 : m ≤ M) (h2 : m ≤ l) (h3 : l ≤ L) :
    ∃ i : ℕ, (i : ℤ) = m * (2 * L + 1 - m) / 2 + l ∧ i < x.length ∧
      x.getD i 0 = lastVal 0 t.rows (l * l + l + m + 1) * ((f l : ℝ) : ℂ) := by
  obtain ⟨i, i1, i2, i3⟩ := h.2 l m h0 h1 h2 h3
  refine ⟨i, i1, i2, ?_⟩
  rw [hg l m ⟨h0, h1, h2, h3⟩] at i3
  injection i3 with i3
  exact i3.symm

/-- `get_data()` of an object whose expansions hold (scaled) tables. -/
theorem getData_file {e : Exp} {L M : ℤ} {pol : Bool} (h : Loaded e L M pol) (tab : ℕ → Table ℂ) (f g : ℤ → ℝ) (old : Comps)
    (hc : CompsHoldScaled pol tab L M f g old ⟨e.T, e.G, e.C⟩) : ∃ out, getData e = .ret out ∧ ListsFile pol tab L M f g out := by
  obtain ⟨c1, c2, -⟩ := hc
  refine ⟨_, getData_loaded h, ?_⟩
  cases pol with
  | false =>
    refine ⟨rfl, fun k hk => ?_⟩
    have hk : k = 0 := by simpa using hk
    subst hk
    have hl := lists_self h.T
    exact ⟨hl.1, fun l m h0 h1 h2 h3 => lists_unique hl (t := tab 2) c1.2.2.2 l m h0 h1 h2 h3⟩
  | true =>
    obtain ⟨g1, g2⟩ := h.GC rfl
    obtain ⟨d1, d2⟩ := c2 rfl
    refine ⟨rfl, fun k hk => ?_⟩
    have hk : k < 3 := by simpa using hk
    match k, hk with
    | 0, _ => exact ⟨(lists_self h.T).1, fun l m h0 h1 h2 h3 => lists_unique (lists_self h.T) (t := tab 2) c1.2.2.2 l m h0 h1 h2 h3⟩
    | 1, _ => exact ⟨(lists_self g1).1, fun l m h0 h1 h2 h3 => lists_unique (lists_self g1) (t := tab 3) d1.2.2.2 l m h0 h1 h2 h3⟩
    | 2, _ => exact ⟨(lists_self g2).1, fun l m h0 h1 h2 h3 => lists_unique (lists_self g2) (t := tab 4) d2.2.2.2 l m h0 h1 h2 h3⟩

theorem cByte_iff {p : ℤ} (hp : p = 0 ∨ p % 256 ≠ 0) : p ≠ 0 ↔ cByte p = true := by
  unfold cByte
  rw [decide_eq_true_iff]
  rcases hp with rfl | hp
  · simp
  · exact ⟨fun _ => hp, fun h h0 => h (by rw [h0]; rfl)⟩

/-- **C54** (`Beam`): if the file can satisfy the request, the constructor returns on every rank, and `get_data()` on every rank
returns the coefficients of the file as seen by rank 0. -/
theorem C54_beam {n : ℕ} (hn : 1 ≤ n) (fs : ℕ → Files) (chunk : ℕ → ℕ) (hc : 0 < chunk 0) (junk : ℕ → ℕ → ℂ) (lmax mmax pol : ℤ)
    (hp : pol = 0 ∨ pol % 256 ≠ 0) (file : String) (lf mf L M : ℤ) (tab : ℕ → Table ℂ)
    (hsz : fileSize (cByte pol) (fs 0) file = ok (lf, mf)) (hl : lmax ≤ lf) (hm : mmax ≤ mf)
    (hLM : beamLimits lmax mmax lf mf = (L, M)) (hM : 0 ≤ M) (hf : GoodFile (cByte pol) (fs 0) file L M tab) :
    ∃ b : ℕ → PyBeam, Returns n (fun r => beamInit (fs r) (chunk r) (junk r) r lmax mmax pol file) (fun r => .ret (b r)) ∧
      ∀ r, Loaded (b r).exp L M (cByte pol) ∧ (b r).c.normalized = false ∧
        ∃ out, (b r).getData = .ret out ∧ ListsFile (cByte pol) tab L M (fun _ => 1) (fun _ => 1) out := by
  obtain ⟨b', h1, h2⟩ := beam_read_ok hn fs chunk hc junk lmax mmax (cByte pol) file (fun r => Beam.fresh (junk r 0)) lf mf L M tab
    hsz hl hm hLM hM hf
  have h3 := CApi.returns_post (fun x : Beam × ℤ => (if x.2 ≠ 0 then .raise "RuntimeError: Failed to load" else .ret ⟨x.1, pol⟩ : Val PyBeam))
    (CApi.returns_status h1)
  refine ⟨fun r => ⟨b' r, pol⟩, h3, fun r => ?_⟩
  obtain ⟨r1, r2, r3, r4, hT, hGC, hold⟩ := h2 r
  have hL : Loaded (⟨b' r, pol⟩ : PyBeam).exp L M (cByte pol) :=
    ⟨r1, r2, ⟨hT.1, hT.2.1, hT.2.2.1⟩, fun hp => ⟨⟨(hGC hp).1.1, (hGC hp).1.2.1, (hGC hp).1.2.2.1⟩,
      ⟨(hGC hp).2.1, (hGC hp).2.2.1, (hGC hp).2.2.2.1⟩⟩, r3, cByte_iff hp⟩
  have one : ∀ {t : Table ℂ} {a : Alm ℂ}, Holds t L M a → ∀ l' m', Valid L M l' m' →
      a.get l' m' = ok (lastVal 0 t.rows (code l' m') * (((1 : ℝ)) : ℂ)) := by
    intro t a h l' m' hv
    rw [h.2.2.2 l' m' hv]; simp
  refine ⟨hL, r4, getData_file hL tab (fun _ => 1) (fun _ => 1) (Beam.fresh (junk r 0)).comps ⟨⟨hT.1, hT.2.1, hT.2.2.1, one hT⟩,
    fun hp => ⟨⟨(hGC hp).1.1, (hGC hp).1.2.1, (hGC hp).1.2.2.1, one (hGC hp).1⟩,
      ⟨(hGC hp).2.1, (hGC hp).2.2.1, (hGC hp).2.2.2.1, one (hGC hp).2⟩⟩, hold⟩⟩

/-- **C54** (`Sky`): the same with the coefficients deconvolved by a Gaussian of the given width (arc minutes). -/
theorem C54_sky {n : ℕ} (hn : 1 ≤ n) (fs : ℕ → Files) (chunk : ℕ → ℕ) (hc : 0 < chunk 0) (junk : ℕ → ℕ → ℂ) (lmax pol : ℤ)
    (hp : pol = 0 ∨ pol % 256 ≠ 0) (file : String) (fwhm : ℝ) (lf mf : ℤ) (tab : ℕ → Table ℂ)
    (hsz : fileSize (cByte pol) (fs 0) file = ok (lf, mf)) (hl : lmax ≤ lf) (h0 : 0 ≤ lf) :
    let L := if 0 < lmax then lmax else lf
    L ≤ mf → GoodFile (cByte pol) (fs 0) file L L tab →
    ∃ s : ℕ → PySky, Returns n (fun r => skyInit (fs r) (chunk r) (junk r) r lmax pol file fwhm) (fun r => .ret (s r)) ∧
      ∀ r, Loaded (s r).exp L L (cByte pol) ∧
        ∃ out, (s r).getData = .ret out ∧ ListsFile (cByte pol) tab L L (gaussFactor (-(arcmin2rad * fwhm)))
          (fun l => gaussFactor (-(arcmin2rad * fwhm)) l * polFactor (-(arcmin2rad * fwhm))) out := by
  intro L hmf hf
  obtain ⟨s', h1, h2⟩ := C30_sky_read hn fs chunk hc junk lmax (cByte pol) file fwhm (fun r => Sky.fresh (junk r 0)) lf mf tab
    hsz hl h0 hmf hf
  have h3 := CApi.returns_post (fun x : Sky × ℤ => (if x.2 ≠ 0 then .raise "RuntimeError: Failed to load" else .ret ⟨x.1, pol⟩ : Val PySky))
    (CApi.returns_status h1)
  refine ⟨fun r => ⟨s' r, pol⟩, h3, fun r => ?_⟩
  obtain ⟨r1, r3, hC⟩ := h2 r
  have hL : Loaded (⟨s' r, pol⟩ : PySky).exp L L (cByte pol) :=
    ⟨r1, r1, ⟨hC.1.1, hC.1.2.1, hC.1.2.2.1⟩, fun hp => ⟨⟨(hC.2.1 hp).1.1, (hC.2.1 hp).1.2.1, (hC.2.1 hp).1.2.2.1⟩,
      ⟨(hC.2.1 hp).2.1, (hC.2.1 hp).2.2.1, (hC.2.1 hp).2.2.2.1⟩⟩, r3, cByte_iff hp⟩
  exact ⟨hL, getData_file hL tab _ _ (Sky.fresh (junk r 0)).comps hC⟩

/-- **C55** (constructors, proved part): a request above the limits of the file raises on every rank. -/
theorem C55_init_too_large_partial {n : ℕ} (hn : 1 ≤ n) (fs : ℕ → Files) (chunk : ℕ → ℕ) (junk : ℕ → ℕ → ℂ) (lmax mmax pol : ℤ)
    (file : String) (fwhm : ℝ) (lf mf : ℤ) (hsz : fileSize (cByte pol) (fs 0) file = ok (lf, mf)) :
    (lf < lmax ∨ mf < mmax → ∃ what, Returns n (fun r => beamInit (fs r) (chunk r) (junk r) r lmax mmax pol file) (fun _ => .raise what)) ∧
    (lf < lmax ∨ mf < (if 0 < lmax then lmax else lf) →
      ∃ what, Returns n (fun r => skyInit (fs r) (chunk r) (junk r) r lmax pol file fwhm) (fun _ => .raise what)) := by
  constructor
  · intro h
    obtain ⟨msg, h1⟩ := C31_beam_too_large_partial hn fs chunk junk lmax mmax (cByte pol) file (fun r => Beam.fresh (junk r 0)) lf mf hsz h
    exact ⟨_, CApi.returns_post (fun x : Beam × ℤ => (if x.2 ≠ 0 then .raise "RuntimeError: Failed to load" else .ret ⟨x.1, pol⟩ : Val PyBeam))
      (CApi.returns_status h1)⟩
  · intro h
    obtain ⟨msg, h1⟩ := C31_sky_too_large_partial hn fs chunk junk lmax (cByte pol) file fwhm (fun r => Sky.fresh (junk r 0)) lf mf hsz h
    exact ⟨_, CApi.returns_post (fun x : Sky × ℤ => (if x.2 ≠ 0 then .raise "RuntimeError: Failed to load" else .ret ⟨x.1, pol⟩ : Val PySky))
      (CApi.returns_status h1)⟩

/-- `C54_beam`, `C54_sky` at a file with `lmax = mmax = 2`, three ranks of which only rank 0 sees the file. -/
example : (∃ b : ℕ → PyBeam, Spmd.Returns 3 (fun r => beamInit (if r = 0 then fileEx else fun _ => none) 4 (fun _ => 0) r 1 (-1) 0 "b")
      (fun r => .ret (b r))) ∧
    ∃ s : ℕ → PySky, Spmd.Returns 3 (fun r => skyInit (if r = 0 then fileEx else fun _ => none) 4 (fun _ => 0) r 2 0 "b" 30)
      (fun r => .ret (s r)) := by
  constructor
  · obtain ⟨b, h1, -⟩ := C54_beam (n := 3) (by decide) (fun r => if r = 0 then fileEx else fun _ => none) (fun _ => 4) (by decide)
      (fun _ _ => 0) 1 (-1) 0 (Or.inl rfl) "b" 2 2 1 1 _ fileEx_size (by decide) (by decide) (by decide) (by decide) (fileEx_good _ _)
    exact ⟨b, h1⟩
  · obtain ⟨s, h1, -⟩ := C54_sky (n := 3) (by decide) (fun r => if r = 0 then fileEx else fun _ => none) (fun _ => 4) (by decide)
      (fun _ _ => 0) 2 0 (Or.inl rfl) "b" 30 2 2 _ fileEx_size (by decide) (by decide) (by decide) (fileEx_good _ _)
    exact ⟨s, h1⟩

end Verif.Py
