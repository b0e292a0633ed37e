import Verif.Api.CApi

/-! # C35: the limit of `conviqt_convolver_new` in numbers -/

namespace Verif.CApi
open Verif Res Verif.Obj

/-- **C35** with the number of the header: a convolver is made for `lmax = 100000`, `mmax ≤ 100000` (if the expansions have that much), and
a null pointer is returned for every larger limit. -/
theorem C35_convolver_limit {w : World} {s b : ℕ} {ls lb mb : ℤ} (h : Reports w s b ls lb mb) (d : ℕ) (pol : Bool) {lmax mmax : ℤ}
    (order : ℤ) (hl : 0 ≤ lmax) (hm : 0 ≤ mmax) (h1 : lmax ≤ ls) (h2 : lmax ≤ lb) (h3 : mmax ≤ mb) :
    (∃ c, convolverNew true w s b d pol lmax mmax order = .ret (some c)) ↔ lmax < 100001 ∧ mmax < 100001 := by
  obtain ⟨e1, e2, _⟩ := C35_convolver_new h d pol order hl hm
  constructor
  · rintro ⟨c, hc⟩
    by_contra hx
    rw [e1 (by unfold LMAXMAX; omega)] at hc
    cases hc
  · rintro ⟨x1, x2⟩
    exact e2 (by unfold LMAXMAX; omega) (by unfold LMAXMAX; omega) h1 h2 h3

end Verif.CApi
