import Verif.Api.ConvProps
import Verif.Api.ReadProps
import Verif.Api.ObjProps

/-!
# The C interface: model and C35

src/cconviqt.cpp, src/cconviqt.h.  A C function either returns a value or lets a C++ exception escape into the (C) caller;
undefined behaviour inside is kept.  The texts printed to stderr are not modelled.
-/

namespace Verif.CApi
open Verif Res Verif.Obj Verif.Harm

/-- What the caller of a C function sees. -/
inductive Out (α : Type) where
  | ret (v : α)
  | escape (msg : String)
  | ub (why : String)

/-- An exception leaves the C function. -/
def Out.Escapes {α : Type} : Out α → Prop
  | .escape _ => True
  | _ => False

/-- `try { … } catch (...) { return fail; } return good`: the pattern of all functions marked `guarded` below. -/
def guarded {α β : Type} (fail : β) (good : α → β) : Res α → Out β
  | .ok a => .ret (good a)
  | .throw _ => .ret fail
  | .ub w => .ub w

/-- `try { … } catch (...) { std::cout << …; throw; return -1; } return 0`, src/cconviqt.cpp:365-385. -/
def rethrown {α β : Type} (good : α → β) : Res α → Out β
  | .ok a => .ret (good a)
  | .throw e => .escape e
  | .ub w => .ub w

/-- `return new(std::nothrow) T(args)`: a null pointer (`none`) if the storage cannot be obtained (`mem = false`); an
exception of the constructor `c` is not caught. -/
def newNothrow {α : Type} (mem : Bool) (c : Res α) : Out (Option α) :=
  if mem then
    match c with
    | .ok a => .ret (some a)
    | .throw e => .escape e
    | .ub w => .ub w
  else .ret none

/-! ## exception flow of every function -/

/-- The functions of the C interface, src/cconviqt.cpp. -/
inductive Fn where
  | beam_new | beam_del | beam_read | beam_lmax | beam_mmax | beam_normalize | beam_normalized | beam_Tdata | beam_Gdata | beam_Cdata
  | sky_new | sky_del | sky_read | sky_lmax | sky_remove_monopole | sky_remove_dipole | sky_Tdata | sky_Gdata | sky_Cdata
  | detector_new | detector_new_with_id | detector_del | detector_set_epsilon | detector_get_epsilon | detector_set_id | detector_get_id
  | pointing_new | pointing_del | pointing_alloc | pointing_data
  | convolver_new | convolver_del | convolver_set_sky | convolver_set_beam | convolver_set_detector | convolver_convolve
  deriving DecidableEq

/-- How a function is written. -/
inductive Form where
  /-- body in `try` with `catch (...) { return fail; }` -/
  | tryCatch
  /-- body in `try` with `catch (...) { throw; }` -/
  | tryRethrow
  /-- `return new(std::nothrow) T(…)` outside any `try`; the flag says whether constructing `T` can throw -/
  | bareNew (ctorThrows : Bool)

/-- src/cconviqt.cpp, by line of the function.  Constructors: `beam` and `sky` allocate one coefficient for each of three
`Alm` members (levels/Healpix_cxx/ls_alm.h:96-97, can throw `bad_alloc`); `detector()` and `pointing()` allocate nothing
(src/conviqt.hpp:88-119); `detector(std::string)` converts and copies a string; `convolver` throws on inconsistent limits. -/
def form : Fn → Form
  | .beam_new => .bareNew true               -- :12
  | .sky_new => .bareNew true                -- :106
  | .detector_new => .bareNew false          -- :189
  | .detector_new_with_id => .bareNew true   -- :191-193
  | .pointing_new => .bareNew false          -- :245
  | .convolver_new => .bareNew true          -- :279-320
  | .convolver_convolve => .tryRethrow       -- :365-385
  | _ => .tryCatch

/-- An exception (of the callee, or of the constructor) occurring in a function of the given form leaves it. -/
def Form.lets : Form → Bool
  | .tryCatch => false
  | .tryRethrow => true
  | .bareNew c => c

/-- C35 is false: exactly the following functions can let a C++ exception escape to the C caller. -/
theorem C35_escape_list (f : Fn) : (form f).lets = true ↔
    f = .convolver_convolve ∨ f = .convolver_new ∨ f = .beam_new ∨ f = .sky_new ∨ f = .detector_new_with_id := by
  cases f <;> simp [form, Form.lets]

/-! ## the functions on objects -/

/-- `conviqt_beam_read`, src/cconviqt.cpp:24-37: status of the call from the outcome of `beam::read` (object, exception). -/
def statusOf {σ : Type} (x : σ × Option String) : σ × ℤ := (x.1, match x.2 with | none => 0 | some _ => -1)

/-- `conviqt_beam_read` on rank `rank`. -/
noncomputable def beamReadC (fs : Files) (chunk : ℕ) (junk : ℕ → ℂ) (rank : ℕ) (bl bm : ℤ) (pol : Bool) (file : String) (b : Beam) :
    Spmd.Prog ℂ (Beam × ℤ) :=
  beamRead fs chunk junk rank bl bm pol file b >>= fun x => Spmd.Prog.done (ok (statusOf x))

/-- `conviqt_sky_read`, src/cconviqt.cpp:118-131. -/
noncomputable def skyReadC (fs : Files) (chunk : ℕ) (junk : ℕ → ℂ) (rank : ℕ) (sl : ℤ) (pol : Bool) (file : String) (fwhm : ℝ) (s : Sky) :
    Spmd.Prog ℂ (Sky × ℤ) :=
  skyRead fs chunk junk rank sl pol file fwhm s >>= fun x => Spmd.Prog.done (ok (statusOf x))

/-- `conviqt_beam_normalize`, src/cconviqt.cpp:57-64: the value of `normalize()`, or -1. -/
noncomputable def beamNormalizeC (b : Beam) : Out (ℝ × Beam) := guarded (-1, b) id (Obj.normalize b)

/-- `conviqt_sky_remove_monopole`, `_dipole`, src/cconviqt.cpp:142-160. -/
noncomputable def removeMonopoleC (s : Sky) : Out (ℤ × Sky) := guarded (-1, s) (fun s' => (0, s')) (removeMonopole s)
noncomputable def removeDipoleC (s : Sky) : Out (ℤ × Sky) := guarded (-1, s) (fun s' => (0, s')) (removeDipole s)

/-- `LMAXMAX`, src/cconviqt.h:9 -/
def LMAXMAX : ℤ := 100000

/-- `conviqt_convolver_new`, src/cconviqt.cpp:279-320 (without DEBUG). -/
def convolverNew (mem : Bool) (w : World) (s b d : ℕ) (pol : Bool) (lmax mmax order : ℤ) : Out (Option Conv) :=
  if LMAXMAX < lmax ∨ LMAXMAX < mmax then .ret none
  else newNothrow mem (ctor w s b d pol lmax mmax order)

/-- `conviqt_detector_get_id`, src/cconviqt.cpp:235-243: `strcpy` of the id with its terminating zero into a caller's buffer
of `size` bytes. -/
def getId (id : List Char) (size : ℕ) : Out (ℤ × List Char) :=
  guarded (-1, []) (fun s => (0, s)) (if id.length + 1 ≤ size then ok (id ++ [Char.ofNat 0]) else ub "buffer overflow")

/-! ## C35 -/

/-- C35 for the guarded functions: no exception escapes; the status is the success value exactly when the callee returned. -/
theorem C35_guarded_partial {α β : Type} (fail : β) (good : α → β) (hne : ∀ a, good a ≠ fail) (r : Res α) :
    ¬(guarded fail good r).Escapes ∧ (∀ a, r = ok a ↔ r = ok a ∧ guarded fail good r = .ret (good a)) ∧
      (guarded fail good r = .ret fail ↔ r.IsThrow) := by
  cases r with
  | ok a =>
    refine ⟨fun h => h, fun b => ⟨fun h => ⟨h, by cases h; rfl⟩, fun h => h.1⟩, ⟨fun h => ?_, fun h => by cases h⟩⟩
    simp only [guarded] at h
    injection h with h
    exact absurd h (hne a)
  | throw e => exact ⟨fun h => h, fun b => ⟨(fun h => by cases h), fun h => h.1⟩, ⟨fun _ => trivial, fun _ => rfl⟩⟩
  | ub e =>
    refine ⟨fun h => h, fun b => ⟨(fun h => by cases h), fun h => h.1⟩, ⟨(fun h => ?_), fun h => by cases h⟩⟩
    simp only [guarded] at h
    cases h

/-- C35: removing the monopole or dipole of a read sky always reports success. -/
theorem C35_remove_status_partial (s : Sky) (h : s.T.WF) :
    (∃ s', removeMonopoleC s = .ret (0, s')) ∧ (∃ s', removeDipoleC s = .ret (0, s')) := by
  obtain ⟨s1, h1, -⟩ := C33_remove s h [.monopole]
  obtain ⟨s2, h2, -⟩ := C33_remove s h [.dipole]
  have e1 : removeMonopole s = ok s1 := by
    have : foldRes SkyOp.run s [.monopole] = (removeMonopole s >>= fun t => ok t) := rfl
    rw [this] at h1
    cases hr : removeMonopole s <;> rw [hr] at h1 <;> first | exact h1 | cases h1
  have e2 : removeDipole s = ok s2 := by
    have : foldRes SkyOp.run s [.dipole] = (removeDipole s >>= fun t => ok t) := rfl
    rw [this] at h2
    cases hr : removeDipole s <;> rw [hr] at h2 <;> first | exact h2 | cases h2
  exact ⟨⟨s1, by unfold removeMonopoleC; rw [e1]; rfl⟩, ⟨s2, by unfold removeDipoleC; rw [e2]; rfl⟩⟩

/-- C35 for `conviqt_convolver_new` with explicit limits, memory being available: a convolver if the limits are consistent; a
null pointer if an argument exceeds `LMAXMAX`; but an escaping C++ exception, not a null pointer, if the limits exceed those of
the expansions. -/
theorem C35_convolver_new {w : World} {s b : ℕ} {ls lb mb : ℤ} (h : Reports w s b ls lb mb) (d : ℕ) (pol : Bool) {lmax mmax : ℤ}
    (order : ℤ) (hl : 0 ≤ lmax) (hm : 0 ≤ mmax) :
    (LMAXMAX < lmax ∨ LMAXMAX < mmax → convolverNew true w s b d pol lmax mmax order = .ret none) ∧
    (lmax ≤ LMAXMAX → mmax ≤ LMAXMAX → lmax ≤ ls → lmax ≤ lb → mmax ≤ mb →
      ∃ c, convolverNew true w s b d pol lmax mmax order = .ret (some c)) ∧
    (lmax ≤ LMAXMAX → mmax ≤ LMAXMAX → ¬(lmax ≤ ls ∧ lmax ≤ lb ∧ mmax ≤ mb) →
      (convolverNew true w s b d pol lmax mmax order).Escapes) := by
  obtain ⟨e1, e2⟩ := C34_explicit h d pol order hl hm
  refine ⟨fun hx => by unfold convolverNew; rw [if_pos hx], fun x1 x2 x3 x4 x5 => ?_, fun x1 x2 x3 => ?_⟩
  · unfold convolverNew
    rw [if_neg (by omega), e1 ⟨x3, x4, x5⟩]
    exact ⟨_, rfl⟩
  · obtain ⟨msg, hmsg⟩ := e2 x3
    unfold convolverNew
    rw [if_neg (by omega), hmsg]
    trivial

/-- C35: `conviqt_convolver_convolve` never returns a failure status: whatever `convolve` does, the call returns 0, or an
exception escapes, or the behaviour is undefined. -/
theorem C35_convolve_never_reports {α : Type} (r : Res α) :
    rethrown (fun _ : α => (0 : ℤ)) r ≠ .ret (-1) ∧ (r.IsThrow ↔ (rethrown (fun _ : α => (0 : ℤ)) r).Escapes) := by
  cases r with
  | ok a =>
    refine ⟨fun h => ?_, ⟨fun h => h, fun h => h⟩⟩
    simp only [rethrown] at h
    injection h with h
    norm_num at h
  | throw e => exact ⟨(fun h => by simp only [rethrown] at h; cases h), ⟨fun _ => trivial, fun _ => trivial⟩⟩
  | ub e => exact ⟨(fun h => by simp only [rethrown] at h; cases h), ⟨fun h => h, fun h => h⟩⟩

/-- Post-processing the value of a program. -/
def post {α β γ : Type} (f : β → γ) (p : Spmd.Prog α β) : Spmd.Prog α γ := p >>= fun x => Spmd.Prog.done (ok (f x))

def mapRes {β γ : Type} (f : β → γ) : Res β → Res γ
  | .ok b => ok (f b)
  | .throw e => throw e
  | .ub e => ub e

theorem post_done {α β γ : Type} (f : β → γ) (r : Res β) :
    post f (Spmd.Prog.done r : Spmd.Prog α β) = .done (mapRes f r) := by cases r <;> rfl

theorem post_call {α β γ : Type} (f : β → γ) (c : Spmd.Coll α) (k : Spmd.Ans α → Spmd.Prog α β) :
    post f (.call c k) = .call c (fun a => post f (k a)) := rfl

theorem mapM_post {A B C D : Type} (g : A → B) (u : A → Option C) (v : B → Option D) (h : C → D)
    (huv : ∀ a, v (g a) = (u a).map h) : ∀ xs : List A, (xs.map g).mapM v = (xs.mapM u).map (List.map h) := by
  intro xs
  induction xs with
  | nil => rfl
  | cons x xs ih =>
    rw [List.map_cons, List.mapM_cons, List.mapM_cons, huv, ih]
    cases u x <;> cases xs.mapM u <;> rfl

theorem run_post {α β γ : Type} (f : β → γ) : ∀ (p : Spmd.Prog α β) (ps : List (Spmd.Prog α β)) (rs : List (Res β)),
    Spmd.run p ps = .finished rs → Spmd.run (post f p) (ps.map (post f)) = .finished (rs.map (mapRes f)) := by
  intro p
  induction p with
  | done r =>
    intro ps rs h
    rw [post_done]
    unfold Spmd.run at h ⊢
    rw [mapM_post (post f) Spmd.Prog.getDone Spmd.Prog.getDone (mapRes f) (fun a => by
      cases a with
      | done r => rw [post_done]; rfl
      | call c k => rfl)]
    cases hm : ps.mapM Spmd.Prog.getDone with
    | none => rw [hm] at h; cases h
    | some qs => rw [hm] at h; cases h; rfl
  | call c k ih =>
    intro ps rs h
    rw [post_call]
    unfold Spmd.run at h ⊢
    rw [mapM_post (post f) Spmd.Prog.getCall Spmd.Prog.getCall (fun ck => (ck.1, fun a => post f (ck.2 a))) (fun a => by
      cases a with
      | done r => rw [post_done]; rfl
      | call c k => rfl)]
    cases hm : ps.mapM Spmd.Prog.getCall with
    | none => rw [hm] at h; cases h
    | some cks =>
      rw [hm] at h
      simp only [Option.map_some, List.map_map] at h ⊢
      have e : (Prod.fst ∘ fun ck : Spmd.Coll α × (Spmd.Ans α → Spmd.Prog α β) => (ck.1, fun a => post f (ck.2 a))) = Prod.fst := rfl
      rw [e]
      cases hx : Spmd.exec (c :: cks.map Prod.fst) with
      | none => rw [hx] at h; cases h
      | some as =>
        rw [hx] at h
        cases as with
        | nil => cases h
        | cons a as =>
          dsimp only at h ⊢
          have := ih a _ _ h
          rw [List.map_zipWith] at this
          rw [List.zipWith_map_left]
          exact this

theorem returns_post {α β γ : Type} {n : ℕ} {P : ℕ → Spmd.Prog α β} {v : ℕ → β} (f : β → γ) (h : Spmd.Returns n P v) :
    Spmd.Returns n (fun r => post f (P r)) (fun r => f (v r)) := by
  unfold Spmd.Returns Spmd.runAll at h ⊢
  have := run_post f _ _ _ h
  rw [List.map_map, List.map_map] at this
  exact this

theorem returns_status {n : ℕ} {σ : Type} {P : ℕ → Spmd.Prog ℂ (σ × Option String)} {v : ℕ → σ × Option String}
    (h : Spmd.Returns n P v) :
    Spmd.Returns n (fun r => P r >>= fun x => Spmd.Prog.done (ok (statusOf x))) (fun r => statusOf (v r)) := by
  exact returns_post statusOf h

/-- C35 for `conviqt_beam_read`, `conviqt_sky_read`: a granted request gives status 0 on every rank, a request above the limits
of the file gives -1 on every rank. -/
theorem C35_beam_read_partial {n : ℕ} (hn : 1 ≤ n) (fs : ℕ → Files) (chunk : ℕ → ℕ) (hc : 0 < chunk 0) (junk : ℕ → ℕ → ℂ)
    (bl bm : ℤ) (pol : Bool) (file : String) (b : ℕ → Beam) (lf mf L M : ℤ) (tab : ℕ → Fits.Table ℂ)
    (hsz : fileSize pol (fs 0) file = ok (lf, mf)) (hLM : beamLimits bl bm lf mf = (L, M)) (hM : 0 ≤ M)
    (hf : GoodFile pol (fs 0) file L M tab) :
    ∃ b' : ℕ → Beam, Spmd.Returns n (fun r => beamReadC (fs r) (chunk r) (junk r) r bl bm pol file (b r))
      (fun r => (b' r, if bl ≤ lf ∧ bm ≤ mf then 0 else -1)) := by
  by_cases h : bl ≤ lf ∧ bm ≤ mf
  · obtain ⟨b', h1, -⟩ := C31_beam_same_partial hn fs chunk hc junk bl bm pol file b lf mf L M tab hsz h.1 h.2 hLM hM hf
    refine ⟨b', ?_⟩
    simp only [if_pos h]
    exact returns_status h1
  · obtain ⟨msg, h1⟩ := C31_beam_too_large_partial hn fs chunk junk bl bm pol file b lf mf hsz (by omega)
    refine ⟨fun r => { b r with pol := some pol }, ?_⟩
    simp only [if_neg h]
    exact returns_status h1

/-- C35 is false for objects: a rejected `conviqt_beam_read` (status -1 on every rank) has changed the `pol` member of the
beam, so that e.g. a polarised beam after a rejected unpolarised read is normalised in its temperature part only. -/
theorem C35_rejected_read_modifies {n : ℕ} (hn : 1 ≤ n) (fs : ℕ → Files) (chunk : ℕ → ℕ) (junk : ℕ → ℕ → ℂ)
    (bl bm : ℤ) (file : String) (b : ℕ → Beam) (lf mf : ℤ) (hsz : fileSize false (fs 0) file = ok (lf, mf))
    (hbad : lf < bl ∨ mf < bm) (hpol : ∀ r, (b r).pol = some true) (hT : ∀ r, (b r).T.WF) (hnorm : ∀ r, (b r).normalized = false) :
    ∃ b' : ℕ → Beam, Spmd.Returns n (fun r => beamReadC (fs r) (chunk r) (junk r) r bl bm false file (b r)) (fun r => (b' r, -1)) ∧
      ∀ r, b' r ≠ b r ∧ (∃ s x, Obj.normalize (b' r) = ok (s, x) ∧ x.G = (b r).G) := by
  obtain ⟨msg, h1⟩ := C31_beam_too_large_partial hn fs chunk junk bl bm false file b lf mf hsz hbad
  refine ⟨fun r => { b r with pol := some false }, returns_status h1, fun r => ⟨fun h => ?_, ?_⟩⟩
  · have := congrArg Beam.pol h
    rw [hpol r] at this
    simp at this
  · obtain ⟨c, hc⟩ := Alm.get_ok (hT r) (l := 0) (m := 0) ⟨le_refl _, (hT r).1, le_refl _, le_trans (hT r).1 (hT r).2.1⟩
    refine ⟨1 / (2 * √Real.pi * c.re), ⟨(b r).T.scale (mulR (1 / (2 * √Real.pi * c.re))), (b r).G, (b r).C, true, (b r).lmax,
      (b r).mmax, some false⟩, ?_, rfl⟩
    unfold Obj.normalize
    dsimp only
    rw [hnorm r, if_neg (by decide), if_pos (le_trans (hT r).1 (hT r).2.1), hc]
    rfl

/-- C35: the value -1 of `conviqt_beam_normalize` is ambiguous: it is also the legitimate factor of a beam whose monopole
coefficient is `-1 / (2 √π)`. -/
theorem C35_normalize_ambiguous (b : Beam) (hT : b.T.WF) (p : Bool) (hp : b.pol = some p) (hn : b.normalized = false) (c : ℂ)
    (hc : b.T.get 0 0 = ok c) (hre : c.re = -1 / (2 * √Real.pi)) : ∃ b', beamNormalizeC b = .ret (-1, b') ∧ b'.normalized = true := by
  have hpi : √Real.pi ≠ 0 := (Real.sqrt_pos.mpr Real.pi_pos).ne'
  have hs : 1 / (2 * √Real.pi * c.re) = -1 := by rw [hre]; field_simp
  refine ⟨⟨b.T.scale (mulR (-1)), (if p then b.G.scale (mulR (-1)) else b.G),
    (if p then b.C.scale (mulR (-1)) else b.C), true, b.lmax, b.mmax, b.pol⟩, ?_, rfl⟩
  unfold beamNormalizeC Obj.normalize
  rw [hn, if_neg (by decide), if_pos (le_trans hT.1 hT.2.1), hc, ok_bind]
  dsimp only
  rw [hp, hs]
  rfl

/-- C35: `conviqt_detector_get_id` is defined exactly when the caller's buffer can hold the id with its terminating zero; the
interface offers no way to ask for the length. -/
theorem C35_get_id (id : List Char) (size : ℕ) :
    (id.length < size ↔ getId id size = .ret (0, id ++ [Char.ofNat 0])) ∧ (size ≤ id.length → ∃ why, getId id size = .ub why) := by
  unfold getId
  by_cases h : id.length + 1 ≤ size
  · rw [if_pos h]
    exact ⟨⟨fun _ => rfl, fun _ => by omega⟩, fun h' => by omega⟩
  · rw [if_neg h]
    exact ⟨⟨fun h' => by omega, fun h' => by simp only [guarded] at h'; cases h'⟩, fun _ => ⟨_, rfl⟩⟩

/-! ## witnesses -/

example : ∃ c, convolverNew true wWorld 0 0 0 true 2 2 1 = .ret (some c) :=
  (C35_convolver_new wLoaded.toReports 0 true 1 (by norm_num) (by norm_num)).2.1 (by decide) (by decide) (by norm_num) (by norm_num) (by norm_num)

example : (convolverNew true wWorld 0 0 0 true 3 2 1).Escapes :=
  (C35_convolver_new wLoaded.toReports 0 true 1 (by norm_num) (by norm_num)).2.2 (by decide) (by decide) (by norm_num)

example : convolverNew true wWorld 0 0 0 true 100001 2 1 = .ret none :=
  (C35_convolver_new wLoaded.toReports 0 true 1 (by norm_num) (by norm_num)).1 (by decide)

example : ∃ s', removeDipoleC (wWorld.sky 0) = .ret (0, s') := (C35_remove_status_partial _ wLoaded.sT.1).2

end Verif.CApi
