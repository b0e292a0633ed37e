import Verif.Api.CApi
import Verif.Api.ArrSteps

/-!
# The full statements of C23, C30, C31, C34, C35, C36 and C44, refuted

For each property of `properties.jsonl` that is only partly true of the code, the statement as a user would write it, and a
proof that it does not hold.  The parts that do hold are the theorems with the suffix `_partial`.
-/

namespace Verif.Obj
open Verif Res Verif.Spmd Verif.Harm

/-- C23 as stated: after a successful `read` no rank's beam is marked as normalised. -/
def C23_Full : Prop :=
  ∀ (n : ℕ) (fs : ℕ → Files) (chunk : ℕ → ℕ) (junk : ℕ → ℕ → ℂ) (bl bm : ℤ) (pol : Bool) (file : String) (b b' : ℕ → Beam),
    1 ≤ n → 0 < chunk 0 →
    Returns n (fun r => beamRead (fs r) (chunk r) (junk r) r bl bm pol file (b r)) (fun r => (b' r, none)) →
    ∀ r < n, (b' r).normalized = false

theorem C23_full_refuted : ¬ C23_Full := by
  intro h
  obtain ⟨b', h1, h2⟩ := C23_read_after_normalize (n := 1) le_rfl (fun _ => fileEx) (fun _ => 4) (by decide) (fun _ _ => 0)
    1 (-1) false "b" (fun _ => { Beam.fresh 0 with normalized := true }) 2 2 1 1 _ fileEx_size (by decide) (by decide)
    (by decide) (by decide) (fileEx_good _ _) (fun _ => rfl)
  have := h 1 _ _ _ _ _ _ _ _ b' le_rfl (by decide) h1 0 (by decide)
  rw [(h2 0).1] at this
  cases this

/-- C30 as stated, for the beam: a successful `read` with positive arguments gives exactly these limits. -/
def C30_Full : Prop :=
  ∀ (n : ℕ) (fs : ℕ → Files) (chunk : ℕ → ℕ) (junk : ℕ → ℕ → ℂ) (bl bm : ℤ) (pol : Bool) (file : String) (b b' : ℕ → Beam),
    1 ≤ n → 0 < chunk 0 → 0 < bl → 0 < bm →
    Returns n (fun r => beamRead (fs r) (chunk r) (junk r) r bl bm pol file (b r)) (fun r => (b' r, none)) →
    ∀ r < n, (b' r).lmax = some bl ∧ (b' r).mmax = some bm

theorem C30_full_refuted : ¬ C30_Full := by
  intro h
  obtain ⟨b', h1, h2⟩ := C30_beam_mmax_wrong (n := 1) le_rfl (fun _ => fileEx) (fun _ => 4) (by decide) (fun _ _ => 0)
    2 1 false "b" (fun _ => Beam.fresh 0) 2 2 _ fileEx_size (by decide) (by decide) (by decide) (by decide) (fileEx_good 2 2)
  exact (h2 0).2.2 (h 1 _ _ _ _ _ _ _ _ b' le_rfl (by decide) (by decide) (by decide) h1 0 (by decide)).2

/-- C31 as stated, for a missing file: `beam::read` throws on all ranks. -/
def C31_Full : Prop :=
  ∀ (n : ℕ) (fs : ℕ → Files) (chunk : ℕ → ℕ) (junk : ℕ → ℕ → ℂ) (bl bm : ℤ) (pol : Bool) (file : String) (b : ℕ → Beam),
    1 ≤ n → 0 < chunk 0 → file.length < 1025 → (∀ r, fs r file = none) →
    ∃ outs : List (Res (Beam × Option String)),
      runAll n (fun r => beamRead (fs r) (chunk r) (junk r) r bl bm pol file (b r)) = .finished outs ∧
      ∀ o ∈ outs, o.IsThrow ∨ ∃ x msg, o = ok (x, some msg)

theorem C31_full_refuted : ¬ C31_Full := by
  intro h
  obtain ⟨outs, h1, -⟩ := h 2 (fun _ _ => none) (fun _ => 1) (fun _ _ => 0) 1 1 false "b" (fun _ => Beam.fresh 0) (by decide)
    (by decide) (by decide) (fun _ => rfl)
  rw [C31_beam_missing_file_deadlock (by decide) _ _ _ _ _ _ _ _ (by decide) rfl] at h1
  cases h1

/-- C34 as stated: the limits of every constructed convolver are consistent with its sky and beam. -/
def C34_Full : Prop :=
  ∀ (w : World) (s b d : ℕ) (ls lb mb : ℤ) (pol : Bool) (lmax mmax order : ℤ) (c : Conv), Reports w s b ls lb mb →
    ctor w s b d pol lmax mmax order = ok c → c.lmax ≤ min ls lb ∧ 0 ≤ c.mmax ∧ c.mmax ≤ mb

theorem C34_full_refuted : ¬ C34_Full := by
  intro h
  obtain ⟨c, h1, h2, h3⟩ := C34_default_lmax wLoaded_small.toReports 0 false 1 (lmax := -1) (by norm_num)
  have := (h _ _ _ _ _ _ _ _ _ _ _ c wLoaded_small.toReports h1).1
  exact absurd (h3.mp this) (by decide)

/-- C44 as stated: after any history a fresh convolver can be constructed from the current objects (with the arguments of the
original construction), and `convolve` behaves like that of the fresh one. -/
def C44_Full : Prop :=
  ∀ (w0 : World) (s0 b0 d0 : ℕ) (pol : Bool) (lmax mmax order : ℤ) (c0 : Conv) (ops : List Op) (w : World) (c : Conv),
    0 ≤ order → ctor w0 s0 b0 d0 pol lmax mmax order = ok c0 → Hist (w0, c0) ops (w, c) →
    ∃ c', ctor w (curSky s0 ops) (curBeam b0 ops) (curDet d0 ops) pol lmax mmax order = ok c' ∧
      ∀ m calibrate cores me rows, c.convolve m w calibrate cores me rows = c'.convolve m w calibrate cores me rows

theorem C44_full_refuted : ¬ C44_Full := by
  intro h
  obtain ⟨c0, c, h1, h2, -, -, ⟨msg, h3⟩, -⟩ := C44_set_sky_unchecked wLoaded_unpol wLoaded_small (d := 0) (lmax := 2) (mmax := 2)
    (order := 1) (by norm_num) (by norm_num) (by norm_num) (by norm_num) (by norm_num) (by norm_num)
  obtain ⟨c', h4, -⟩ := h _ _ _ _ _ _ _ _ _ _ _ _ (by norm_num) h1 h2
  have h5 : ctor wWorld 1 0 0 false 2 2 1 = ok c' := h4
  rw [h5] at h3
  cases h3

end Verif.Obj

namespace Verif.CApi
open Verif Res Verif.Obj Verif.Harm

/-- C35 as stated, escaping exceptions: no function of the interface is written so that it lets one escape, and in particular
`conviqt_convolver_new` always returns. -/
def C35_Full : Prop :=
  (∀ f, (form f).lets = false) ∧
  ∀ (mem : Bool) (w : World) (s b d : ℕ) (pol : Bool) (lmax mmax order : ℤ) (ls lb mb : ℤ), Reports w s b ls lb mb →
    ¬ (convolverNew mem w s b d pol lmax mmax order).Escapes

theorem C35_full_refuted : ¬ C35_Full := by
  rintro ⟨-, h⟩
  exact h _ _ _ _ _ _ _ _ _ _ _ _ wLoaded.toReports
    ((C35_convolver_new wLoaded.toReports 0 true 1 (lmax := 3) (mmax := 2) (by norm_num) (by norm_num)).2.2 (by decide) (by decide)
      (by norm_num))

end Verif.CApi
