import Verif.Py.Init
import Verif.Py.Normal
import Verif.Api.ArrSteps

/-!
# C55: how failures reach the Python caller

Models the rest of python/libconviqt_wrapper/__init__.py: `Convolver` (:435-473), `Detector` (:322-361), `Pointing` (:377-412).
-/

namespace Verif.Py
open Verif Res Verif.Obj Verif.Harm Verif.Spmd Val

/-! ## `Convolver` -/

/-- The attribute `_conv`: `ct.c_void_p` as a result type turns a null pointer into `None`, any other into an integer. -/
abbrev PyPtr (α : Type) := Option α

/-- `p == 0`, __init__.py:454.  `None == 0` is `False`, and the integer of a non-null pointer is not 0. -/
def eqZero {α : Type} : PyPtr α → Bool
  | none => false
  | some _ => false

/-- `Convolver.__init__`, __init__.py:440-455. -/
def convInit (mem : Bool) (w : World) (s b d : ℕ) (pol lmax mmax order : ℤ) : Val (PyPtr Conv) :=
  match CApi.convolverNew mem w s b d (cByte pol) lmax mmax order with
  | .ret p => if eqZero p then .raise "RuntimeError: Failed to instantiate convolver" else .ret p
  | .escape e => .abort e
  | .ub e => .ub e

/-- What Python makes of a status code that is returned (0: success), or of an exception that escapes from the C function, for
`conviqt_convolver_convolve` (`try … catch (…) { throw; }`, src/cconviqt.cpp:365-385) and __init__.py:468-473. -/
def ofConvolve {β : Type} : Res β → Val β
  | r => match CApi.rethrown (fun b => ((0 : ℤ), b)) r with
    | .ret (err, b) => if err ≠ 0 then .raise "RuntimeError: Failed to convolve" else .ret b
    | .escape e => .abort e
    | .ub e => .ub e

/-- A collective program seen from Python: its outcome on this rank is turned into a Python outcome. -/
def observe {α β : Type} (f : Res β → Val β) : Prog α β → Prog α (Val β)
  | .done r => .done (ok (f r))
  | .call c k => .call c (fun a => observe f (k a))

/-- `Convolver.convolve`, __init__.py:468-473, on one rank.  A `None` handle is passed as a null pointer and dereferenced. -/
noncomputable def pyConvolve (m : Mach) (w : World) (p : PyPtr Conv) (calibrate : Bool) (cores me : ℕ) (rows : List (Tod.Row ℝ)) :
    Prog ℝ (Val (List (Tod.Row ℝ))) :=
  match p with
  | none => .done (ok (.ub "null pointer"))
  | some c => observe ofConvolve (c.convolve m w calibrate cores me rows)

/-! ## `Detector` -/

/-- `Detector`: id and epsilon of the C++ object (`epsilon_` is not initialised, src/conviqt.hpp:106-116). -/
structure PyDet where
  id : List Char
  eps : Option ℝ

/-- `Detector.__init__`, __init__.py:327-333: the name is passed as a zero-terminated string, so it ends at its first NUL. -/
def detInit (name : Option (List Char)) (eps : Option ℝ) : PyDet :=
  ⟨(name.getD []).takeWhile (fun c => c ≠ Char.ofNat 0), eps⟩

/-- `Detector.get_epsilon`, __init__.py:351-356. -/
def PyDet.getEpsilon (d : PyDet) : Val ℝ := knownV d.eps

/-- `Detector.get_id`, __init__.py:358-361: a buffer of 1024 bytes; `s.value` is its part before the first NUL.  (The status
is not looked at.) -/
def PyDet.getId (d : PyDet) : Val (List Char) :=
  match CApi.getId d.id 1024 with
  | .ret r => .ret (r.2.takeWhile (fun c => c ≠ Char.ofNat 0))
  | .escape e => .abort e
  | .ub e => .ub e

/-! ## `Pointing` -/

/-- `Pointing`: the C++ object (array number `arr` on the heap) and the attribute `_nrow` (a class attribute 0 before `alloc`). -/
structure PyPnt where
  arr : ℕ
  nrow : ℕ

/-- `Pointing.alloc`, __init__.py:401-407 with `conviqt_pointing_alloc`, src/cconviqt.cpp:257-268: `_nrow` is set first.
`oom` says whether the allocator fails. -/
def PyPnt.alloc {T : Type} (oom : Bool) (p : PyPnt) (nrow : ℕ) (st : Arr.St T) : Val Unit × PyPnt × Arr.St T :=
  match Arr.alloc oom p.arr (nrow * 5) st with
  | .ok _ st' => (.ret (), ⟨p.arr, nrow⟩, st')
  | .exc st' => (.raise "RuntimeError: Failed to allocate rows to pointing", ⟨p.arr, nrow⟩, st')
  | .ub w => (.ub w, ⟨p.arr, nrow⟩, st)

/-- An array made by `np.ctypeslib.as_array`: address and shape. -/
structure PyView where
  addr : ℕ
  rows : ℕ
  cols : ℕ

/-- `Pointing.data`, __init__.py:409-412: `.contents` of a null pointer raises. -/
def PyPnt.data {T : Type} (p : PyPnt) (st : Arr.St T) : Val PyView :=
  match st.objs p.arr with
  | none => .ub "use of an object outside its lifetime"
  | some o => match o.d with
    | none => .raise "ValueError: NULL pointer access"
    | some a => .ret ⟨a, p.nrow, 5⟩

/-- `arr[i, j]`: NumPy checks the shape, then the memory is read. -/
def PyView.get {T : Type} (v : PyView) (i j : ℕ) (st : Arr.St T) : Val (Option T) :=
  if i < v.rows ∧ j < v.cols then
    match Arr.load (some v.addr) (i * v.cols + j) st with
    | .ok x _ => .ret x
    | .exc _ => .raise "?"
    | .ub w => .ub w
  else .raise "IndexError"

/-- `Pointing.__del__`, __init__.py:390-399: `delete ref`. -/
def PyPnt.del {T : Type} (p : PyPnt) (st : Arr.St T) : Val (Arr.St T) :=
  match Arr.dtor p.arr st with
  | .ok _ st' => .ret st'
  | .exc _ => .raise "?"
  | .ub w => .ub w

/-! ## C55: `set_data` -/

/-- **C55** (`set_data`, proved part): on a loaded object the call never has undefined behaviour; it returns exactly if there
is one array (three with polarisation) of the right size each; if the *first* array is missing or has the wrong size it raises
and the object is unchanged. -/
theorem C55_set_data_partial (f32 : ℝ → ℝ) {e : Exp} {L M : ℤ} {pol : Bool} (h : Loaded e L M pol) (x : List (List ℂ)) :
    ((setData f32 e x).1 = .ret () ∨ ∃ what, (setData f32 e x).1 = .raise what) ∧
    ((setData f32 e x).1 = .ret () ↔ ∀ j < (if pol then 3 else 1), ∃ y, x[j]? = some y ∧
      (y.length : ℤ) = (M + 1) * (M + 2) / 2 + (M + 1) * (L - M)) ∧
    ((∀ y, x[0]? = some y → (y.length : ℤ) ≠ (M + 1) * (M + 2) / 2 + (M + 1) * (L - M)) →
      ∃ what, setData f32 e x = (.raise what, e)) := by
  have hTl := wf_len h.T.1
  rw [h.T.2.1, h.T.2.2] at hTl
  have hg : ∀ (n : ℕ) (x : List (List ℂ)), goodPrefix e.T.alm.length x n = n ↔
      ∀ j < n, ∃ y, x[j]? = some y ∧ (y.length : ℤ) = (M + 1) * (M + 2) / 2 + (M + 1) * (L - M) := by
    intro n
    induction n with
    | zero => intro x; cases x <;> simp [goodPrefix]
    | succ n ih =>
      intro x
      cases x with
      | nil =>
        simp only [goodPrefix]
        constructor
        · intro h0; omega
        · intro h0
          obtain ⟨y, hy, -⟩ := h0 0 (by omega)
          simp at hy
      | cons a xs =>
        simp only [goodPrefix]
        by_cases ha : a.length = e.T.alm.length
        · rw [if_pos ha, Nat.add_right_cancel_iff, ih xs]
          constructor
          · intro hh j hj
            cases j with
            | zero => exact ⟨a, rfl, by rw [← hTl, ha]⟩
            | succ j => simpa using hh j (by omega)
          · intro hh j hj
            simpa using hh (j + 1) (by omega)
        · rw [if_neg ha]
          constructor
          · intro h0; omega
          · intro h0
            obtain ⟨y, hy, hy'⟩ := h0 0 (by omega)
            have : a = y := by simpa using hy
            subst this
            exact absurd (by exact_mod_cast hy'.trans hTl.symm) ha
  obtain ⟨h1, h2, h3⟩ := setData_any f32 h x
  have hb := hg (if pol then 3 else 1) x
  refine ⟨?_, ?_, fun h0 => ?_⟩
  · by_cases hk : goodPrefix e.T.alm.length x (if pol = true then 3 else 1) = if pol = true then 3 else 1
    · exact Or.inl (h2 hk)
    · exact Or.inr (h3 hk)
  · rw [← hb]
    constructor
    · intro hr
      by_contra hk
      obtain ⟨what, hw⟩ := h3 hk
      rw [hw] at hr
      cases hr
    · exact h2
  · have hk : goodPrefix e.T.alm.length x (if pol = true then 3 else 1) = 0 := by
      cases x with
      | nil => cases pol <;> rfl
      | cons a xs =>
        have ha : a.length ≠ e.T.alm.length := fun ha => h0 a rfl (by rw [← hTl, ha])
        cases pol <;> simp [goodPrefix, ha]
    obtain ⟨-, -, p3⟩ := h1
    obtain ⟨what, hw⟩ := h3 (by rw [hk]; cases pol <;> decide)
    refine ⟨what, ?_⟩
    rw [hk] at p3
    refine Prod.ext hw ?_
    rw [p3]
    simp

/-- **C55** is false for `set_data`: with a second array of the wrong size the call raises, but the first component has already
been replaced. -/
theorem C55_set_data_not_atomic (f32 : ℝ → ℝ) {e : Exp} {L M : ℤ} (h : Loaded e L M true) (t g : List ℂ) (rest : List (List ℂ))
    (ht : (t.length : ℤ) = (M + 1) * (M + 2) / 2 + (M + 1) * (L - M)) (hg : (g.length : ℤ) ≠ (M + 1) * (M + 2) / 2 + (M + 1) * (L - M)) :
    ∃ what, (setData f32 e (t :: g :: rest)).1 = .raise what ∧
      Lists L M (setData f32 e (t :: g :: rest)).2.T (t.map (f32c f32)) ∧ (setData f32 e (t :: g :: rest)).2.G = e.G := by
  have hTl := wf_len h.T.1
  rw [h.T.2.1, h.T.2.2] at hTl
  have ht' : t.length = e.T.alm.length := by exact_mod_cast ht.trans hTl.symm
  have hg' : g.length ≠ e.T.alm.length := fun hx => hg (by rw [← hTl, hx])
  obtain ⟨⟨-, -, p3⟩, -, h3⟩ := setData_any f32 h (t :: g :: rest)
  have hk : goodPrefix e.T.alm.length (t :: g :: rest) (if true = true then 3 else 1) = 1 := by
    simp [goodPrefix, ht', hg']
  rw [hk] at p3 h3
  obtain ⟨what, hw⟩ := h3 (by decide)
  refine ⟨what, hw, ?_, ?_⟩
  · rw [p3]
    exact lists_self (wf_with h.T (x := t.map (f32c f32)) (by rw [List.length_map, ht']))
  · rw [p3]; simp

/-- `pol` is handed to C as one byte: with `pol = 256` Python takes the beam for polarised and C++ does not; `get_data` then
raises, `set_data` writes through a null pointer. -/
theorem C55_pol_byte (f32 : ℝ → ℝ) {e : Exp} {L M : ℤ} (h : Loaded { e with pyPol := 0 } L M false) (p : ℤ) (hp : p ≠ 0) (t g : List ℂ)
    (rest : List (List ℂ)) (ht : t.length = e.T.alm.length) (hg : g.length = e.T.alm.length) :
    (∃ what, getData { e with pyPol := p } = .raise what) ∧ ∃ why, (setData f32 { e with pyPol := p } (t :: g :: rest)).1 = .ub why := by
  have hn : numAlmsPy { e with pyPol := p } = .ret (e.T.alm.length : ℤ) := by
    have := numAlmsPy_loaded h
    exact this
  have hcp : e.cpol = some false := h.cpol
  constructor
  · refine ⟨"ValueError: NULL pointer access", ?_⟩
    unfold getData
    rw [hn]
    simp only [ret_bind, dataT]
    rw [fetch_floats _ rfl]
    simp only [ret_bind]
    rw [if_pos hp, hcp]
    rfl
  · refine ⟨"memmove to a null pointer", ?_⟩
    have hne : ¬((t.length : ℤ) ≠ (e.T.alm.length : ℤ)) := by rw [ht]; exact fun h => h rfl
    have hnl : ((e.T.alm.length : ℤ) * 2).toNat = 2 * e.T.alm.length := by omega
    have hT := storeComp_ok f32 e.T.alm t (List.replicate (2 * e.T.alm.length) 0) (nelem := 2 * e.T.alm.length) rfl (by simp) ht
    unfold setData
    rw [hn]
    simp only [ret_andThen, List.getElem?_cons_zero, List.getElem?_cons_succ]
    rw [if_neg hne, hnl]
    unfold dataT
    rw [hT]
    simp only [ret_andThen]
    rw [if_pos hp, hcp]
    unfold storeComp assign2
    simp only [dataP, ret_bind]
    rw [if_pos (by rw [List.length_map, hg]; omega)]
    simp only [ret_bind]
    rw [if_pos (by rw [List.length_map, hg]; omega)]
    rfl

/-! ## C55: `normalize` -/

/-- **C55** is false for `normalize`: if the monopole coefficient is negative the call raises; but the beam has been scaled and
marked as normalised, and calling again returns 1. -/
theorem C55_normalize_raises {b : PyBeam} {L M : ℤ} {pol : Bool} (h : Loaded b.exp L M pol) (hn : b.c.normalized = false) (c : ℂ)
    (hc : b.c.T.get 0 0 = ok c) (hneg : c.re < 0) :
    ∃ what b', b.normalize = (.raise what, b') ∧ b'.normalized = .ret true ∧ UnitBeam b' ∧ b'.normalize = (.ret 1, b') := by
  have hpi : 0 < √Real.pi := Real.sqrt_pos.mpr Real.pi_pos
  obtain ⟨c', q1, q2, q3, q4, q5⟩ := (normalize_loaded h).2 hn
  have hcc : c' = c := by rw [hc] at q1; injection q1 with q1; exact q1.symm
  subst hcc
  have hneg' : 2 * √Real.pi * c'.re < 0 := mul_neg_of_pos_of_neg (by positivity) hneg
  rw [if_pos (le_of_lt (by rw [one_div]; exact inv_lt_zero.mpr hneg'))] at q4
  refine ⟨_, b.normalize.2, Prod.ext q4 rfl, ?_, ?_, (normalize_loaded q2).1 q3⟩
  · unfold PyBeam.normalized; rw [q3]; rfl
  · have hT : b.c.T.WF ∧ b.c.T.lmax = L ∧ b.c.T.mmax = M := h.T
    refine ⟨mulR (1 / (2 * √Real.pi * c'.re)) c', ?_, ?_⟩
    · rw [q5]
      exact Alm.scale_get hT.1 _ ⟨le_refl _, hT.1.1, le_refl _, le_trans hT.1.1 hT.1.2.1⟩ q1
    · unfold mulR
      rw [Complex.re_mul_ofReal]
      have := hneg.ne
      have := hpi.ne'
      field_simp

/-- **C55** (`normalize`, proved part): with a positive monopole coefficient the call returns the factor and the beam is normalised. -/
theorem C55_normalize_partial {b : PyBeam} {L M : ℤ} {pol : Bool} (h : Loaded b.exp L M pol) (hn : b.c.normalized = false) (c : ℂ)
    (hc : b.c.T.get 0 0 = ok c) (hpos : 0 < c.re) :
    ∃ s b', b.normalize = (.ret s, b') ∧ s * (2 * √Real.pi * c.re) = 1 ∧ b'.normalized = .ret true ∧ UnitBeam b' := by
  have hpi : 0 < √Real.pi := Real.sqrt_pos.mpr Real.pi_pos
  obtain ⟨c', q1, q2, q3, q4, q5⟩ := (normalize_loaded h).2 hn
  have hcc : c' = c := by rw [hc] at q1; injection q1 with q1; exact q1.symm
  subst hcc
  have hp : 0 < 2 * √Real.pi * c'.re := by positivity
  rw [if_neg (not_le.mpr (by positivity))] at q4
  refine ⟨_, b.normalize.2, Prod.ext q4 rfl, by field_simp, ?_, ?_⟩
  · unfold PyBeam.normalized; rw [q3]; rfl
  · have hT : b.c.T.WF ∧ b.c.T.lmax = L ∧ b.c.T.mmax = M := h.T
    refine ⟨mulR (1 / (2 * √Real.pi * c'.re)) c', ?_, ?_⟩
    · rw [q5]
      exact Alm.scale_get hT.1 _ ⟨le_refl _, hT.1.1, le_refl _, le_trans hT.1.1 hT.1.2.1⟩ q1
    · unfold mulR
      rw [Complex.re_mul_ofReal]
      have := hpos.ne'
      have := hpi.ne'
      field_simp

/-! ## C55: `Convolver` -/

/-- **C55** is false for the convolver: the constructor never raises, whatever the arguments and the available memory. -/
theorem C55_convolver_never_raises (mem : Bool) (w : World) (s b d : ℕ) (pol lmax mmax order : ℤ) (what : String) :
    convInit mem w s b d pol lmax mmax order ≠ .raise what := by
  unfold convInit
  split
  · rename_i p _
    cases p <;> simp [eqZero]
  · simp
  · simp

/-- **C55** is false for the convolver: limits above `LMAXMAX` give an object without convolver, with no exception; its first
use is undefined.  Limits above those of the expansions end the process. -/
theorem C55_convolver_bad_limits {w : World} {s b : ℕ} {ls lb mb : ℤ} (h : Reports w s b ls lb mb) (d : ℕ) (pol : ℤ) {lmax mmax : ℤ}
    (order : ℤ) (hl : 0 ≤ lmax) (hm : 0 ≤ mmax) :
    (100000 < lmax ∨ 100000 < mmax → ∃ p, convInit true w s b d pol lmax mmax order = .ret p ∧
      ∀ m w' calibrate cores n (rows : ℕ → List (Tod.Row ℝ)), 1 ≤ n →
        Returns n (fun r => pyConvolve m w' p calibrate cores r (rows r)) (fun _ => .ub "null pointer")) ∧
    (lmax ≤ 100000 → mmax ≤ 100000 → ¬(lmax ≤ ls ∧ lmax ≤ lb ∧ mmax ≤ mb) → ∃ why, convInit true w s b d pol lmax mmax order = .abort why) := by
  obtain ⟨c1, -, c3⟩ := CApi.C35_convolver_new h d (cByte pol) order hl hm
  constructor
  · intro hx
    refine ⟨none, ?_, fun m w' cal cores n rows hn => ?_⟩
    · unfold convInit
      rw [c1 hx]
      rfl
    · exact runAll_done hn (fun _ => (ok (Val.ub "null pointer") : Res (Val (List (Tod.Row ℝ)))))
  · intro x1 x2 x3
    have := c3 x1 x2 x3
    unfold convInit
    cases hc : CApi.convolverNew true w s b d (cByte pol) lmax mmax order with
    | ret p => rw [hc] at this; exact this.elim
    | escape e => exact ⟨e, rfl⟩
    | ub e => rw [hc] at this; exact this.elim

/-- Without memory for the object the constructor returns too. -/
theorem C55_convolver_no_memory (w : World) (s b d : ℕ) (pol lmax mmax order : ℤ) :
    convInit false w s b d pol lmax mmax order = .ret none := by
  unfold convInit CApi.convolverNew CApi.newNothrow
  split
  · rename_i p hp
    split at hp
    · cases hp; rfl
    · cases hp; rfl
  · rename_i hp; split at hp <;> cases hp
  · rename_i hp; split at hp <;> cases hp

/-- **C55** (`Convolver`, proved part): consistent limits give a usable object. -/
theorem C55_convolver_partial {w : World} {s b : ℕ} {ls lb mb : ℤ} (h : Reports w s b ls lb mb) (d : ℕ) (pol : ℤ) {lmax mmax : ℤ}
    (order : ℤ) (hl : 0 ≤ lmax) (hm : 0 ≤ mmax) (h1 : lmax ≤ 100000) (h2 : mmax ≤ 100000) (h3 : lmax ≤ ls ∧ lmax ≤ lb ∧ mmax ≤ mb) :
    ∃ c, convInit true w s b d pol lmax mmax order = .ret (some c) ∧ ctor w s b d (cByte pol) lmax mmax order = ok c := by
  have hc := (C34_explicit h d (cByte pol) order hl hm).1 h3
  refine ⟨_, ?_, hc⟩
  unfold convInit CApi.convolverNew
  rw [if_neg (by unfold CApi.LMAXMAX; omega), hc]
  rfl

/-! ## C55: `convolve` -/

theorem observe_mem {α β : Type} (f : Res β → Val β) : ∀ (p : Prog α β) (ps : List (Prog α β)) (rs : List (Res (Val β))),
    run (observe f p) (ps.map (observe f)) = .finished rs → ∃ qs, run p ps = .finished qs ∧ rs = qs.map (fun r => ok (f r)) := by
  intro p
  induction p with
  | done r =>
    intro ps rs h
    simp only [observe] at h
    unfold run at h ⊢
    rw [CApi.mapM_post (observe f) Prog.getDone Prog.getDone (fun r => ok (f r)) (fun a => by cases a <;> rfl)] at h
    cases hm : ps.mapM Prog.getDone with
    | none => rw [hm] at h; cases h
    | some qs => rw [hm] at h; cases h; exact ⟨_, rfl, rfl⟩
  | call c k ih =>
    intro ps rs h
    simp only [observe] at h
    unfold run at h ⊢
    rw [CApi.mapM_post (observe f) Prog.getCall Prog.getCall (fun ck => (ck.1, fun a => observe f (ck.2 a)))
      (fun a => by cases a <;> rfl)] at h
    cases hm : ps.mapM Prog.getCall with
    | none => rw [hm] at h; cases h
    | some cks =>
      rw [hm] at h
      simp only [Option.map_some, List.map_map] at h ⊢
      have e : (Prod.fst ∘ fun ck : Coll α × (Ans α → Prog α β) => (ck.1, fun a => observe f (ck.2 a))) = Prod.fst := rfl
      rw [e] at h
      cases hx : exec (c :: cks.map Prod.fst) with
      | none => rw [hx] at h; cases h
      | some as =>
        rw [hx] at h
        cases as with
        | nil => cases h
        | cons a as =>
          dsimp only at h ⊢
          rw [List.zipWith_map_left] at h
          refine ih a _ rs ?_
          rw [List.map_zipWith]
          exact h

theorem run_observe {α β : Type} (f : Res β → Val β) : ∀ (p : Prog α β) (ps : List (Prog α β)) (qs : List (Res β)),
    run p ps = .finished qs → run (observe f p) (ps.map (observe f)) = .finished (qs.map (fun r => ok (f r))) := by
  intro p
  induction p with
  | done r =>
    intro ps rs h
    simp only [observe]
    unfold run at h ⊢
    rw [CApi.mapM_post (observe f) Prog.getDone Prog.getDone (fun r => ok (f r)) (fun a => by cases a <;> rfl)]
    cases hm : ps.mapM Prog.getDone with
    | none => rw [hm] at h; cases h
    | some qs => rw [hm] at h; cases h; rfl
  | call c k ih =>
    intro ps rs h
    simp only [observe]
    unfold run at h ⊢
    rw [CApi.mapM_post (observe f) Prog.getCall Prog.getCall (fun ck => (ck.1, fun a => observe f (ck.2 a)))
      (fun a => by cases a <;> rfl)]
    cases hm : ps.mapM Prog.getCall with
    | none => rw [hm] at h; cases h
    | some cks =>
      rw [hm] at h
      simp only [Option.map_some, List.map_map] at h ⊢
      have e : (Prod.fst ∘ fun ck : Coll α × (Ans α → Prog α β) => (ck.1, fun a => observe f (ck.2 a))) = Prod.fst := rfl
      rw [e]
      cases hx : exec (c :: cks.map Prod.fst) with
      | none => rw [hx] at h; cases h
      | some as =>
        rw [hx] at h
        cases as with
        | nil => cases h
        | cons a as =>
          dsimp only at h ⊢
          rw [List.zipWith_map_left]
          have := ih a _ _ h
          rw [List.map_zipWith] at this
          exact this

/-- **C55** is false for `convolve`: a C++ exception on a rank ends the process of that rank; a Python exception is never raised.
For the job: the Python calls end on all ranks exactly as `convolver::convolve` does, rank by rank. -/
theorem C55_convolve (m : Mach) (w : World) (c : ℕ → Conv) (calibrate : Bool) (cores n : ℕ)
    (rows : ℕ → List (Tod.Row ℝ)) (vs : List (Res (Val (List (Tod.Row ℝ))))) :
    runAll n (fun r => pyConvolve m w (some (c r)) calibrate cores r (rows r)) = .finished vs ↔
    ∃ qs, runAll n (fun r => (c r).convolve m w calibrate cores r (rows r)) = .finished qs ∧
      vs = qs.map (fun q => match q with | .ok out => ok (.ret out) | .throw e => ok (.abort e) | .ub e => ok (.ub e)) := by
  have he : ∀ q : Res (List (Tod.Row ℝ)), (match q with | .ok out => ok (.ret out) | .throw e => ok (.abort e) | .ub e => ok (.ub e)
      : Res (Val (List (Tod.Row ℝ)))) = ok (ofConvolve q) := by
    intro q; cases q <;> rfl
  simp only [he]
  unfold runAll
  have hm : (List.range' 1 (n - 1)).map (fun r => pyConvolve m w (some (c r)) calibrate cores r (rows r)) =
      ((List.range' 1 (n - 1)).map (fun r => (c r).convolve m w calibrate cores r (rows r))).map (observe ofConvolve) := by
    rw [List.map_map]; rfl
  rw [hm]
  constructor
  · intro h
    exact observe_mem ofConvolve _ _ _ h
  · rintro ⟨qs, h1, rfl⟩
    exact run_observe ofConvolve _ _ _ h1

/-! ## C55: constructors and a missing file -/

/-- **C55** is false for a file that rank 0 cannot open: on two or more ranks nobody raises, the job hangs. -/
theorem C55_missing_file {n : ℕ} (fs : ℕ → Files) (chunk : ℕ → ℕ) (junk : ℕ → ℕ → ℂ) (lmax mmax pol : ℤ) (file : String)
    (hname : file.length < 1025) (hmiss : fs 0 file = none) (hn2 : 2 ≤ n) :
    ∀ b : ℕ → Val PyBeam, ¬ Returns n (fun r => beamInit (fs r) (chunk r) (junk r) r lmax mmax pol file) b := by
  intro b hb
  have hst := C31_beam_missing_file_deadlock hn2 fs chunk junk lmax mmax (cByte pol) file (fun r => Beam.fresh (junk r 0)) hname hmiss
  have key : ∀ {α β γ : Type} (f : β → γ) (p : Prog α β) (ps : List (Prog α β)) (rs : List (Res γ)),
      run (CApi.post f p) (ps.map (CApi.post f)) = .finished rs → ∃ qs, run p ps = .finished qs := by
    intro α β γ f p
    induction p with
    | done r =>
      intro ps rs h
      rw [CApi.post_done] at h
      unfold run at h ⊢
      rw [CApi.mapM_post (CApi.post f) Prog.getDone Prog.getDone (CApi.mapRes f) (fun a => by
        cases a with
        | done r => rw [CApi.post_done]; rfl
        | call c k => rfl)] at h
      cases hm : ps.mapM Prog.getDone with
      | none => rw [hm] at h; cases h
      | some qs => exact ⟨_, rfl⟩
    | call c k ih =>
      intro ps rs h
      rw [CApi.post_call] at h
      unfold run at h ⊢
      rw [CApi.mapM_post (CApi.post f) Prog.getCall Prog.getCall (fun ck => (ck.1, fun a => CApi.post f (ck.2 a))) (fun a => by
        cases a with
        | done r => rw [CApi.post_done]; rfl
        | call c k => rfl)] at h
      cases hm : ps.mapM Prog.getCall with
      | none => rw [hm] at h; cases h
      | some cks =>
        rw [hm] at h
        simp only [Option.map_some, List.map_map] at h ⊢
        have e : (Prod.fst ∘ fun ck : Coll α × (Ans α → Prog α β) => (ck.1, fun a => CApi.post f (ck.2 a))) = Prod.fst := rfl
        rw [e] at h
        cases hx : exec (c :: cks.map Prod.fst) with
        | none => rw [hx] at h; cases h
        | some as =>
          rw [hx] at h
          cases as with
          | nil => cases h
          | cons a as =>
            dsimp only at h ⊢
            rw [List.zipWith_map_left] at h
            refine ih a _ rs ?_
            rw [List.map_zipWith]
            exact h
  unfold Returns runAll at hb
  unfold runAll at hst
  obtain ⟨qs, hq⟩ := key (fun x : Beam × Option String =>
    (if (CApi.statusOf x).2 ≠ 0 then .raise "RuntimeError: Failed to load" else .ret ⟨(CApi.statusOf x).1, pol⟩ : Val PyBeam)) _
    ((List.range' 1 (n - 1)).map (fun r => beamRead (fs r) (chunk r) (junk r) r lmax mmax (cByte pol) file (Beam.fresh (junk r 0)))) _
    (by
      rw [List.map_map]
      refine Eq.trans ?_ hb
      have e : ∀ r, CApi.post (fun x : Beam × Option String =>
          (if (CApi.statusOf x).2 ≠ 0 then .raise "RuntimeError: Failed to load" else .ret ⟨(CApi.statusOf x).1, pol⟩ : Val PyBeam))
          (beamRead (fs r) (chunk r) (junk r) r lmax mmax (cByte pol) file (Beam.fresh (junk r 0))) =
          beamInit (fs r) (chunk r) (junk r) r lmax mmax pol file := by
        intro r
        unfold beamInit CApi.beamReadC CApi.post
        rw [Prog.bind_assoc]
        rfl
      rw [e 0]
      congr 1
      exact List.map_congr_left (fun r _ => e r))
  rw [hst] at hq
  cases hq

/-! ## C55: `Detector` and `Pointing` -/

/-- **C55** (`Detector`): `get_id` returns the name given at construction (up to its first NUL) if this has fewer than 1024
bytes; longer names overflow the buffer.  `get_epsilon` is undefined if no value has been given. -/
theorem C55_detector (name : List Char) (eps : Option ℝ) :
    (let id := name.takeWhile (fun c => c ≠ Char.ofNat 0)
     (id.length < 1024 → (detInit (some name) eps).getId = .ret id) ∧
     (1024 ≤ id.length → ∃ why, (detInit (some name) eps).getId = .ub why)) ∧
    (∀ x, eps = some x → (detInit (some name) eps).getEpsilon = .ret x) ∧
    (eps = none → ∃ why, (detInit (some name) eps).getEpsilon = .ub why) := by
  refine ⟨⟨fun h => ?_, fun h => ?_⟩, fun x hx => by rw [hx]; rfl, fun hx => ⟨_, by rw [hx]; rfl⟩⟩
  · unfold PyDet.getId detInit
    simp only [Option.getD_some]
    rw [(CApi.C35_get_id _ 1024).1.mp h]
    dsimp only
    congr 1
    have : ∀ l : List Char, (l.takeWhile (fun c => decide (c ≠ Char.ofNat 0)) ++ [Char.ofNat 0]).takeWhile
        (fun c => decide (c ≠ Char.ofNat 0)) = l.takeWhile (fun c => decide (c ≠ Char.ofNat 0)) := by
      intro l
      induction l with
      | nil => simp
      | cons a l ih =>
        by_cases ha : a = Char.ofNat 0
        · simp [ha]
        · rw [List.takeWhile_cons, if_pos (by simpa using ha), List.cons_append, List.takeWhile_cons, if_pos (by simpa using ha), ih]
    exact this name
  · obtain ⟨why, hw⟩ := (CApi.C35_get_id (name.takeWhile (fun c => c ≠ Char.ofNat 0)) 1024).2 h
    refine ⟨why, ?_⟩
    unfold PyDet.getId detInit
    simp only [Option.getD_some]
    rw [hw]

/-- **C55** (`Pointing`, proved part): a successful `alloc` gives an array of the requested shape all of whose elements can be
read. -/
theorem C55_alloc_partial {T : Type} {st : Arr.St T} (hi : Arr.Inv st) (p : PyPnt) {o : Arr.Obj} (ho : st.objs p.arr = some o)
    (hown : Arr.AllOwn st) (nrow : ℕ) (hpos : 0 < nrow) :
    ∃ st', p.alloc false nrow st = (.ret (), ⟨p.arr, nrow⟩, st') ∧ Arr.Inv st' ∧
      ∃ v, (⟨p.arr, nrow⟩ : PyPnt).data st' = .ret v ∧ v.rows = nrow ∧ v.cols = 5 ∧
        ∀ i < nrow, ∀ j < 5, ∃ x, v.get i j st' = .ret x := by
  obtain ⟨st', o', h1, h2, h3, h4, -, -, h7⟩ := Arr.alloc_spec hi ho false (nrow * 5) (by simp)
  obtain ⟨hall, -⟩ := h7 hown
  refine ⟨st', by unfold PyPnt.alloc; rw [h1], h2, ?_⟩
  have hok := h2.objOk _ _ h3
  unfold Arr.ObjOk at hok
  cases hd : o'.d with
  | none => rw [hd] at hok; simp only at hok; omega
  | some a =>
    rw [hd] at hok
    simp only [hall _ _ h3, if_true] at hok
    obtain ⟨xs, hx1, hx2⟩ := hok
    refine ⟨⟨a, nrow, 5⟩, ?_, rfl, rfl, fun i hi j hj => ?_⟩
    · unfold PyPnt.data
      simp only [h3, hd]
    · have hlt : i * 5 + j < xs.length := by omega
      refine ⟨xs[i * 5 + j], ?_⟩
      unfold PyView.get
      rw [if_pos ⟨hi, hj⟩]
      have := Arr.load_ok (st := st') (p := a) (k := i * 5 + j) (kd := .live) (xs := xs) hx1 (by decide) hlt
      rw [this]

/-- **C55** is false for `Pointing.alloc`: if the allocator fails while a non-empty object is re-allocated, the call raises, but
the rows allocated before are gone: `data()` returns an array of the shape that was *not* allocated on freed memory (reading any
of its elements is undefined), and destroying the object is undefined (double free). -/
theorem C55_alloc_failure {T : Type} {st : Arr.St T} (hi : Arr.Inv st) (p : PyPnt) {o : Arr.Obj} (ho : st.objs p.arr = some o)
    (hown : o.own = true) (hs : o.s ≠ 0) (nrow : ℕ) (hpos : 0 < nrow) (hne : nrow * 5 ≠ o.s) :
    ∃ what st' v, p.alloc true nrow st = (.raise what, ⟨p.arr, nrow⟩, st') ∧ (⟨p.arr, nrow⟩ : PyPnt).data st' = .ret v ∧
      v.rows = nrow ∧ (∀ i < nrow, ∀ j < 5, ∃ why, v.get i j st' = .ub why) ∧ ∃ why, (⟨p.arr, nrow⟩ : PyPnt).del st' = .ub why := by
  obtain ⟨st', a, h1, h2, h3⟩ := Arr.alloc_failure hi ho hown hs (nrow * 5) (by omega) hne
  refine ⟨_, st', ⟨a, nrow, 5⟩, by unfold PyPnt.alloc; rw [h1], ?_, rfl, fun i hi j hj => ⟨"use after free", ?_⟩,
    ⟨"delete[] of a pointer that is not a live allocation", ?_⟩⟩
  · unfold PyPnt.data
    simp only [h2]
  · unfold PyView.get
    rw [if_pos ⟨hi, hj⟩]
    have : Arr.load (some a) (i * 5 + j) st' = .ub "use after free" := by simp [Arr.load, h3]
    rw [this]
  · unfold PyPnt.del
    have : Arr.dtor p.arr st' = .ub "delete[] of a pointer that is not a live allocation" := by
      unfold Arr.dtor
      rw [Arr.bind_ok (Arr.getO_ok h2)]
      unfold Arr.freeIfOwn
      rw [if_pos rfl]
      apply Arr.bind_ub
      simp [Arr.stmDealloc, h3]
    rw [this]

/-! ## the full statement -/

/-- C55 as stated, for two of the calls: a `Convolver(...)` that returns has a convolver, and never ends the process; a
`set_data` that raises leaves the object unchanged. -/
def C55_Full : Prop :=
  (∀ (mem : Bool) (w : World) (s b d : ℕ) (pol lmax mmax order ls lb mb : ℤ), Reports w s b ls lb mb →
    (∃ c, convInit mem w s b d pol lmax mmax order = .ret (some c)) ∨ ∃ what, convInit mem w s b d pol lmax mmax order = .raise what) ∧
  (∀ (f32 : ℝ → ℝ) (e : Exp) (L M : ℤ) (pol : Bool) (x : List (List ℂ)) (what : String), Loaded e L M pol →
    (setData f32 e x).1 = .raise what → (setData f32 e x).2 = e)

theorem C55_full_refuted : ¬ C55_Full := by
  rintro ⟨h, -⟩
  rcases h false wWorld 0 0 0 1 2 2 1 2 2 2 wLoaded.toReports with ⟨c, hc⟩ | ⟨what, hw⟩
  · rw [C55_convolver_no_memory] at hc
    cases hc
  · exact C55_convolver_never_raises _ _ _ _ _ _ _ _ _ _ hw

/-- The second part is false by itself. -/
theorem C55_full_refuted_set_data : ¬ (∀ (f32 : ℝ → ℝ) (e : Exp) (L M : ℤ) (pol : Bool) (x : List (List ℂ)) (what : String),
    Loaded e L M pol → (setData f32 e x).1 = .raise what → (setData f32 e x).2 = e) := by
  intro h
  obtain ⟨what, h1, h2, -⟩ := C55_set_data_not_atomic id pyBeamEx_loaded [1, 0] [] [] (by norm_num) (by norm_num)
  have h3 := h id _ 1 0 true _ what pyBeamEx_loaded h1
  rw [h3] at h2
  obtain ⟨i, i1, -, i3⟩ := h2.2 0 0 le_rfl le_rfl le_rfl (by norm_num)
  have : i = 0 := by simpa using i1
  subst this
  rw [(get00 pyBeamEx_loaded.T).2] at i3
  injection i3 with i3
  have i4 := congrArg Complex.re i3
  simp [pyBeamEx, PyBeam.exp, beamEx, f32c] at i4

/-! ## witnesses -/

example : ∃ p, convInit true wWorld 0 0 0 1 100001 2 1 = .ret p :=
  let ⟨p, h, _⟩ := (C55_convolver_bad_limits wLoaded.toReports 0 1 1 (by norm_num) (by norm_num)).1 (by norm_num)
  ⟨p, h⟩

example : ∃ why, convInit true wWorld 0 0 0 1 3 2 1 = .abort why :=
  (C55_convolver_bad_limits wLoaded.toReports 0 1 1 (by norm_num) (by norm_num)).2 (by norm_num) (by norm_num) (by norm_num)

example : ∃ c, convInit true wWorld 0 0 0 1 2 2 1 = .ret (some c) :=
  let ⟨c, h, _⟩ := C55_convolver_partial wLoaded.toReports 0 1 1 (lmax := 2) (mmax := 2) (by norm_num) (by norm_num) (by norm_num) (by norm_num)
    (by norm_num)
  ⟨c, h⟩

/-- `C55_pol_byte`: the unpolarised beam `lmax = 1`, `mmax = 0` constructed with `pol = 256`. -/
example : ∃ why, (setData id ⟨⟨1, 0, [2, 3]⟩, almDefault 0, almDefault 0, some 1, some 0, some false, 256⟩ [[1, 0], [0, 0]]).1 = .ub why := by
  have hL : Loaded ⟨⟨1, 0, [2, 3]⟩, almDefault 0, almDefault 0, some 1, some 0, some false, 0⟩ 1 0 false :=
    ⟨rfl, rfl, ⟨⟨le_refl _, zero_le_one, by simp [numAlms]⟩, rfl, rfl⟩, (fun h => by cases h), rfl, by simp⟩
  exact (C55_pol_byte id (e := ⟨⟨1, 0, [2, 3]⟩, almDefault 0, almDefault 0, some 1, some 0, some false, 256⟩) hL 256 (by norm_num)
    [1, 0] [0, 0] [] rfl rfl).2

/-- `C55_normalize_raises`: a beam with a negative monopole. -/
example : ∃ what b', (⟨⟨⟨1, 0, [-2, 3]⟩, almDefault 0, almDefault 0, false, some 1, some 0, some false⟩, 0⟩ : PyBeam).normalize =
    (.raise what, b') ∧ UnitBeam b' := by
  have hL : Loaded (⟨⟨⟨1, 0, [-2, 3]⟩, almDefault 0, almDefault 0, false, some 1, some 0, some false⟩, 0⟩ : PyBeam).exp 1 0 false :=
    ⟨rfl, rfl, ⟨⟨le_refl _, zero_le_one, by simp [numAlms, PyBeam.exp]⟩, rfl, rfl⟩, (fun h => by cases h), rfl, by simp [PyBeam.exp]⟩
  obtain ⟨what, b', h1, -, h2, -⟩ := C55_normalize_raises hL rfl _ (get00 hL.T).2 (by simp [PyBeam.exp])
  exact ⟨what, b', h1, h2⟩

/-- `C55_alloc_partial`, `C55_alloc_failure`: ten rows, then a failing request for twenty. -/
example : ∃ st1 : Arr.St ℕ, (⟨0, 0⟩ : PyPnt).alloc false 10 { Arr.St.init with objs := Function.update (fun _ => none) 0 (some ⟨0, none, true⟩) } =
    (.ret (), ⟨0, 10⟩, st1) ∧ ∃ what st2, (⟨0, 10⟩ : PyPnt).alloc true 20 st1 = (.raise what, ⟨0, 20⟩, st2) ∧
      ∃ why, (⟨0, 20⟩ : PyPnt).del st2 = .ub why := by
  obtain ⟨st0, h0, hi0, hx⟩ := (Arr.good_ctor0 (T := ℕ) Arr.inv_init 0 rfl).2 rfl
  have hst0 : st0 = { Arr.St.init with objs := Function.update (fun _ => none) 0 (some ⟨0, none, true⟩) } := by
    have : Arr.step (.ctor0 0) (Arr.St.init : Arr.St ℕ) = .ok () { Arr.St.init with objs := Function.update (fun _ => none) 0 (some ⟨0, none, true⟩) } := rfl
    rw [h0] at this
    injection this
  rw [← hst0]
  have hall : Arr.AllOwn st0 := (hx rfl Arr.allOwn_init).1
  have ho : st0.objs 0 = some ⟨0, none, true⟩ := by rw [hst0]; simp
  obtain ⟨st', o', h1, h2, h3, h4, -, -, h7⟩ := Arr.alloc_spec hi0 ho false (10 * 5) (by simp)
  refine ⟨st', by unfold PyPnt.alloc; rw [h1], ?_⟩
  obtain ⟨what, st2, v, g1, -, -, -, why, g2⟩ := C55_alloc_failure h2 ⟨0, 10⟩ h3 ((h7 hall).1 _ _ h3) (by omega) 20 (by norm_num) (by omega)
  exact ⟨what, st2, g1, why, g2⟩

end Verif.Py
