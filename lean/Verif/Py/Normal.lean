import Verif.Py.DataProps
import Mathlib.Analysis.Real.Pi.Bounds

/-! # C57: what `Beam.normalized()` says about the coefficients, over histories of calls -/

namespace Verif.Py
open Verif Res Verif.Obj Verif.Harm Val

/-! ## model -/

/-- `Beam.normalize`, __init__.py:117-121: `scale <= 0` raises, after the C++ object has been changed. -/
noncomputable def PyBeam.normalize (b : PyBeam) : Val ℝ × PyBeam :=
  match CApi.beamNormalizeC b.c with
  | .ret (s, c') => ((if s ≤ 0 then .raise "RuntimeError: Failed to normalize beam" else .ret s), ⟨c', b.pol⟩)
  | .escape e => (.abort e, b)
  | .ub w => (.ub w, b)

/-- `Beam.normalized`, __init__.py:123-128; `conviqt_beam_normalized`, src/cconviqt.cpp:66-76: 0 or 1. -/
def PyBeam.normalized (b : PyBeam) : Val Bool :=
  let result : ℤ := if b.c.normalized then 1 else 0
  if result < 0 then .raise "RuntimeError: Failed to query beam normalization status" else .ret (decide (result ≠ 0))

/-- The calls a user can make on a `Beam`. -/
inductive BeamCall where
  | normalize
  | normalized
  | getData
  | setData (x : List (List ℂ))

/-- The object after a call (whether it returns or raises). -/
noncomputable def BeamCall.after (f32 : ℝ → ℝ) (b : PyBeam) : BeamCall → PyBeam
  | .normalize => b.normalize.2
  | .normalized => b
  | .getData => b
  | .setData x => (b.setData f32 x).2

/-! ## `set_data` on any argument -/

theorem loaded_with {e : Exp} {L M : ℤ} {pol : Bool} (h : Loaded e L M pol) {t g c : List ℂ} (ht : t.length = e.T.alm.length)
    (hg : g.length = e.G.alm.length) (hc : c.length = e.C.alm.length) :
    Loaded { e with T := { e.T with alm := t }, G := { e.G with alm := g }, C := { e.C with alm := c } } L M pol :=
  ⟨h.lmax, h.mmax, wf_with h.T ht, fun hp => ⟨wf_with (h.GC hp).1 hg, wf_with (h.GC hp).2 hc⟩, h.cpol, h.pyPol⟩

/-- Specification of the effect of a call `set_data(x)` that does not return normally or that does: of the components
`T, G, C` a (possibly empty) initial part has been replaced by the corresponding arrays of `x`; nothing else has changed. -/
def PartlySet (f32 : ℝ → ℝ) (e : Exp) (x : List (List ℂ)) (k : ℕ) (e' : Exp) : Prop :=
  k ≤ x.length ∧ (∀ j < k, (x.getD j []).length = e.T.alm.length) ∧
  e' = { e with
    T := { e.T with alm := if 0 < k then (x.getD 0 []).map (f32c f32) else e.T.alm }
    G := { e.G with alm := if 1 < k then (x.getD 1 []).map (f32c f32) else e.G.alm }
    C := { e.C with alm := if 2 < k then (x.getD 2 []).map (f32c f32) else e.C.alm } }

/-- How many of the leading arrays of `x` are present with the right size, at most `n`. -/
def goodPrefix (len : ℕ) : List (List ℂ) → ℕ → ℕ
  | _, 0 => 0
  | [], _ => 0
  | x :: xs, n + 1 => if x.length = len then goodPrefix len xs n + 1 else 0

/-- One component. -/
theorem storeComp_cases (f32 : ℝ → ℝ) (l : List ℂ) (buf : List ℝ) (nelem : ℕ) (hn : nelem = 2 * l.length) (hb : buf.length = nelem)
    (x : Option (List ℂ)) :
    (∃ xs, x = some xs ∧ xs.length = l.length ∧
      storeComp f32 nelem (.ret (some (floats l))) buf x = .ret (floats (xs.map (f32c f32)), floats (xs.map (f32c f32)))) ∨
    ((∀ xs, x = some xs → xs.length ≠ l.length) ∧ ∃ what, storeComp f32 nelem (.ret (some (floats l))) buf x = .raise what) := by
  cases x with
  | none => exact Or.inr ⟨(fun xs h => by cases h), _, rfl⟩
  | some xs =>
    by_cases hx : xs.length = l.length
    · exact Or.inl ⟨xs, rfl, hx, storeComp_ok f32 l xs buf hn hb hx⟩
    · exact Or.inr ⟨(fun ys h => by cases h; exact hx), storeComp_size f32 l xs buf hn hx⟩

/-- `set_data(x)` on a loaded object, any argument: it returns or raises, and it returns exactly if all needed arrays are
present with the right size; the components before the first bad one have been replaced. -/
theorem setData_any (f32 : ℝ → ℝ) {e : Exp} {L M : ℤ} {pol : Bool} (h : Loaded e L M pol) (x : List (List ℂ)) :
    let n := if pol then 3 else 1
    let k := goodPrefix e.T.alm.length x n
    PartlySet f32 e x k (setData f32 e x).2 ∧ (k = n → (setData f32 e x).1 = .ret ()) ∧
      (k ≠ n → ∃ what, (setData f32 e x).1 = .raise what) := by
  intro n k
  have hkd : goodPrefix e.T.alm.length x n = k := rfl
  clear_value k
  have hnl : ((e.T.alm.length : ℤ) * 2).toNat = 2 * e.T.alm.length := by omega
  have hlen : ∀ y : List ℂ, y.length = e.T.alm.length → (floats (y.map (f32c f32))).length = 2 * e.T.alm.length := fun y hy => by
    rw [floats_length, List.length_map, hy]
  have hn : 0 < n := by unfold n; cases pol <;> decide
  obtain ⟨n', hn'⟩ := Nat.exists_eq_succ_of_ne_zero (Nat.pos_iff_ne_zero.mp hn)
  match x, hkd with
  | [], hkd =>
    have hk : k = 0 := by rw [← hkd, hn']; rfl
    have hs : setData f32 e [] = (.raise "IndexError: list index out of range", e) := by
      unfold setData; rw [numAlmsPy_loaded h]; rfl
    rw [hk, hs]
    refine ⟨⟨le_rfl, fun j hj => absurd hj (Nat.not_lt_zero j), ?_⟩, fun h0 => by omega, fun _ => ⟨_, rfl⟩⟩
    simp
  | x0 :: xs, hkd =>
    by_cases h0 : x0.length = e.T.alm.length
    · have hT := storeComp_ok f32 e.T.alm x0 (List.replicate (2 * e.T.alm.length) 0) (nelem := 2 * e.T.alm.length) rfl (by simp) h0
      have hne : ¬((x0.length : ℤ) ≠ (e.T.alm.length : ℤ)) := by rw [h0]; exact fun h => h rfl
      cases hp : pol with
      | false =>
        have hpy : ¬ e.pyPol ≠ 0 := fun hx => by rw [hp] at h; simpa using h.pyPol.mp hx
        have hn1 : n = 1 := by unfold n; rw [hp]; rfl
        have hk : k = 1 := by rw [← hkd, hn1]; simp [goodPrefix, h0]
        have hs := (setData_loaded f32 h x0 xs h0).1 hp
        rw [hk, hn1, hs]
        refine ⟨⟨by simp, fun j hj => ?_, ?_⟩, fun _ => rfl, fun h0 => absurd rfl h0⟩
        · have : j = 0 := by omega
          subst this
          simpa using h0
        · simp
      | true =>
        have hpy : e.pyPol ≠ 0 := h.pyPol.mpr hp
        have hgc := h.GC hp
        have hn3 : n = 3 := by unfold n; rw [hp]; rfl
        have hlG := len_eq h.T hgc.1
        have hlC := len_eq h.T hgc.2
        have hcG := storeComp_cases f32 e.G.alm (floats (x0.map (f32c f32))) (2 * e.T.alm.length) (by rw [hlG]) (hlen x0 h0) xs[0]?
        have hstart : setData f32 e (x0 :: xs) =
            (storeComp f32 (2 * e.T.alm.length) (.ret (some (floats e.G.alm))) (floats (x0.map (f32c f32))) xs[0]?).andThen
              { e with T := { e.T with alm := x0.map (f32c f32) } } fun r =>
            (storeComp f32 (2 * e.T.alm.length) (.ret (some (floats e.C.alm))) r.1 xs[1]?).andThen
              { e with T := { e.T with alm := x0.map (f32c f32) }, G := putMem e.G r.2 } fun r' =>
            (.ret (), { e with T := { e.T with alm := x0.map (f32c f32) }, G := putMem e.G r.2, C := putMem e.C r'.2 }) := by
          unfold setData
          rw [numAlmsPy_loaded h]
          simp only [ret_andThen, List.getElem?_cons_zero, List.getElem?_cons_succ]
          rw [if_neg hne, hnl]
          unfold dataT
          rw [hT]
          simp only [ret_andThen]
          rw [if_pos hpy, h.cpol, hp, putMem_floats]
          rfl
        rcases hcG with ⟨g, hg1, hg2, hg3⟩ | ⟨hg1, what, hg3⟩
        · rw [hg3] at hstart
          simp only [ret_andThen] at hstart
          have hcC := storeComp_cases f32 e.C.alm (floats (g.map (f32c f32))) (2 * e.T.alm.length) (by rw [hlC])
            (hlen g (by rw [hg2, hlG])) xs[1]?
          rcases hcC with ⟨c, hc1, hc2, hc3⟩ | ⟨hc1, what, hc3⟩
          · rw [hc3] at hstart
            simp only [ret_andThen, putMem_floats] at hstart
            match xs, hg1, hc1 with
            | g' :: c' :: rest, hg1, hc1 =>
              obtain rfl : g' = g := by simpa using hg1
              obtain rfl : c' = c := by simpa using hc1
              have hk : k = 3 := by
                have e1 := hg2.trans hlG.symm
                have e2 := hc2.trans hlC.symm
                rw [← hkd, hn3]; simp [goodPrefix, h0, e1, e2]
              rw [hk, hn3, hstart]
              refine ⟨⟨by simp, fun j hj => ?_, ?_⟩, fun _ => rfl, fun h0 => absurd rfl h0⟩
              · match j, hj with
                | 0, _ => simpa using h0
                | 1, _ => simpa [hlG] using hg2
                | 2, _ => simpa [hlC] using hc2
              · simp
          · rw [hc3] at hstart
            simp only [raise_andThen, putMem_floats] at hstart
            match xs, hg1, hc1 with
            | g' :: rest, hg1, hc1 =>
              obtain rfl : g' = g := by simpa using hg1
              have hk : k = 2 := by
                have e1 := hg2.trans hlG.symm
                rw [← hkd, hn3]
                cases rest with
                | nil => simp [goodPrefix, h0, e1]
                | cons c' r =>
                  have := hc1 c' (by simp)
                  rw [← hlC] at this
                  simp [goodPrefix, h0, e1, this]
              rw [hk, hn3, hstart]
              refine ⟨⟨by simp, fun j hj => ?_, ?_⟩, fun h0 => by omega, fun _ => ⟨_, rfl⟩⟩
              · match j, hj with
                | 0, _ => simpa using h0
                | 1, _ => simpa [hlG] using hg2
              · simp
        · rw [hg3] at hstart
          simp only [raise_andThen] at hstart
          have hk : k = 1 := by
            rw [← hkd, hn3]
            cases xs with
            | nil => simp [goodPrefix, h0]
            | cons g' r =>
              have := hg1 g' (by simp)
              rw [← hlG] at this
              simp [goodPrefix, h0, this]
          rw [hk, hn3, hstart]
          refine ⟨⟨by simp, fun j hj => ?_, ?_⟩, fun h0 => by omega, fun _ => ⟨_, rfl⟩⟩
          · have : j = 0 := by omega
            subst this
            simpa using h0
          · simp
    · have hne : ((x0.length : ℤ) ≠ (e.T.alm.length : ℤ)) := fun h => h0 (by exact_mod_cast h)
      have hk : k = 0 := by rw [← hkd, hn']; simp [goodPrefix, h0]
      have hs : setData f32 e (x0 :: xs) = (.raise "RuntimeError: Cannot set b_lm", e) := by
        unfold setData
        rw [numAlmsPy_loaded h]
        simp only [ret_andThen, List.getElem?_cons_zero]
        rw [if_pos hne]
      rw [hk, hs]
      refine ⟨⟨Nat.zero_le _, fun j hj => absurd hj (Nat.not_lt_zero j), ?_⟩, fun h0 => by omega, fun _ => ⟨_, rfl⟩⟩
      simp

theorem partlySet_loaded (f32 : ℝ → ℝ) {e e' : Exp} {L M : ℤ} {pol : Bool} (h : Loaded e L M pol) {x : List (List ℂ)} {k : ℕ}
    (hk : k ≤ if pol then 3 else 1) (hp : PartlySet f32 e x k e') : Loaded e' L M pol := by
  obtain ⟨h1, h2, rfl⟩ := hp
  have f : ∀ j, ∀ l : List ℂ, (j < k → e.T.alm.length = l.length) →
      (if j < k then (x.getD j []).map (f32c f32) else l).length = l.length := by
    intro j l hl
    by_cases hj : j < k
    · rw [if_pos hj, List.length_map, h2 j hj, hl hj]
    · rw [if_neg hj]
  cases pol with
  | false =>
    simp only [Bool.false_eq_true, if_false] at hk
    refine ⟨h.lmax, h.mmax, wf_with h.T (f 0 _ (fun _ => rfl)), (fun hp => by cases hp), h.cpol, h.pyPol⟩
  | true =>
    have hgc := h.GC rfl
    exact loaded_with h (f 0 _ (fun _ => rfl)) (f 1 _ (fun _ => len_eq h.T hgc.1)) (f 2 _ (fun _ => len_eq h.T hgc.2))

theorem goodPrefix_le (len : ℕ) (x : List (List ℂ)) (n : ℕ) : goodPrefix len x n ≤ n := by
  induction x generalizing n with
  | nil => cases n <;> simp [goodPrefix]
  | cons a xs ih =>
    cases n with
    | zero => simp [goodPrefix]
    | succ n =>
      simp only [goodPrefix]
      split
      · have := ih n; omega
      · omega

/-! ## C57 -/

/-- The monopole coefficient of the temperature component. -/
theorem get00 {a : Alm ℂ} {L M : ℤ} (h : a.WF ∧ a.lmax = L ∧ a.mmax = M) : 0 < a.alm.length ∧ a.get 0 0 = ok (a.alm.getD 0 0) := by
  obtain ⟨i, h1, h2, h3⟩ := (lists_self h).2 0 0 le_rfl (by rw [← h.2.2]; exact h.1.1) le_rfl (by rw [← h.2.1]; exact le_trans h.1.1 h.1.2.1)
  have : i = 0 := by simpa using h1
  subst this
  exact ⟨h2, h3⟩

/-- A beam with normalised coefficients: `2 √π Re b_00 = 1`. -/
def UnitBeam (b : PyBeam) : Prop := ∃ c, b.c.T.get 0 0 = ok c ∧ 2 * √Real.pi * c.re = 1

/-- The monopole coefficient has a non-zero real part (otherwise `normalize` divides by zero). -/
def MonoNe (b : PyBeam) : Prop := ∀ c, b.c.T.get 0 0 = ok c → c.re ≠ 0

theorem scale_loaded {e : Exp} {L M : ℤ} {pol : Bool} (h : Loaded e L M pol) (s : ℝ) (p : Bool) :
    Loaded { e with T := e.T.scale (mulR s), G := (if p then e.G.scale (mulR s) else e.G), C := (if p then e.C.scale (mulR s) else e.C) }
      L M pol := by
  have e1 : ∀ a : Alm ℂ, a.scale (mulR s) = { a with alm := a.alm.map (mulR s) } := fun a => rfl
  have e2 : ∀ a : Alm ℂ, (if p then a.scale (mulR s) else a) = { a with alm := if p then a.alm.map (mulR s) else a.alm } := by
    intro a; cases p <;> rfl
  rw [e1, e2, e2]
  exact loaded_with h (by simp) (by split <;> simp) (by split <;> simp)

/-- What `normalize` does to a loaded beam. -/
theorem normalize_loaded {b : PyBeam} {L M : ℤ} {pol : Bool} (h : Loaded b.exp L M pol) :
    (b.c.normalized = true → b.normalize = (.ret 1, b)) ∧
    (b.c.normalized = false → ∃ c, b.c.T.get 0 0 = ok c ∧ Loaded b.normalize.2.exp L M pol ∧ b.normalize.2.c.normalized = true ∧
      b.normalize.1 = (if 1 / (2 * √Real.pi * c.re) ≤ 0 then .raise "RuntimeError: Failed to normalize beam"
        else .ret (1 / (2 * √Real.pi * c.re))) ∧
      b.normalize.2.c.T = b.c.T.scale (mulR (1 / (2 * √Real.pi * c.re)))) := by
  constructor
  · intro hn
    unfold PyBeam.normalize CApi.beamNormalizeC Obj.normalize
    rw [if_pos hn]
    simp only [CApi.guarded, id]
    rw [if_neg (by norm_num)]
  · intro hn
    have hT : b.c.T.WF ∧ b.c.T.lmax = L ∧ b.c.T.mmax = M := h.T
    have hc := (get00 hT).2
    have hp : b.c.pol = some pol := h.cpol
    refine ⟨_, hc, ?_⟩
    generalize b.c.T.alm.getD 0 0 = c at hc ⊢
    have e : Obj.normalize b.c = ok (1 / (2 * √Real.pi * c.re), { b.c with
        T := b.c.T.scale (mulR (1 / (2 * √Real.pi * c.re)))
        G := if pol then b.c.G.scale (mulR (1 / (2 * √Real.pi * c.re))) else b.c.G
        C := if pol then b.c.C.scale (mulR (1 / (2 * √Real.pi * c.re))) else b.c.C
        normalized := true }) := by
      unfold Obj.normalize
      rw [if_neg (by rw [hn]; decide), if_pos (le_trans hT.1.1 hT.1.2.1), hc, ok_bind]
      simp only [hp]
    unfold PyBeam.normalize CApi.beamNormalizeC
    rw [e]
    exact ⟨scale_loaded h _ pol, rfl, rfl, rfl⟩

/-- A call keeps the object loaded and does not clear the flag. -/
theorem after_loaded (f32 : ℝ → ℝ) {b : PyBeam} {L M : ℤ} {pol : Bool} (h : Loaded b.exp L M pol) (o : BeamCall) :
    Loaded (o.after f32 b).exp L M pol ∧
      ((o.after f32 b).c.normalized = true ↔ b.c.normalized = true ∨ o = .normalize) := by
  cases o with
  | normalize =>
    cases hn : b.c.normalized with
    | true =>
      have := (normalize_loaded h).1 hn
      simp only [BeamCall.after, this]
      exact ⟨h, by simp [hn]⟩
    | false =>
      obtain ⟨c, -, h2, h3, -⟩ := (normalize_loaded h).2 hn
      exact ⟨h2, by simp [BeamCall.after, h3]⟩
  | normalized => exact ⟨h, by simp [BeamCall.after]⟩
  | getData => exact ⟨h, by simp [BeamCall.after]⟩
  | setData x =>
    have hs := (setData_any f32 h x).1
    have hl := partlySet_loaded f32 h (goodPrefix_le _ _ _) hs
    refine ⟨?_, by simp [BeamCall.after, PyBeam.setData]⟩
    obtain ⟨-, -, hs⟩ := hs
    have : (BeamCall.after f32 b (.setData x)).exp = (setData f32 b.exp x).2 := by
      simp only [BeamCall.after, PyBeam.setData]
      rw [hs]
      rfl
    rw [this]
    exact hl

/-- **C57** (the flag): after any history of calls on a freshly loaded beam, `normalized()` returns `True` exactly if
`normalize()` has been called (successfully or not). -/
theorem C57_flag (f32 : ℝ → ℝ) {L M : ℤ} {pol : Bool} (ops : List BeamCall) {b : PyBeam} (h : Loaded b.exp L M pol)
    (hn : b.c.normalized = false) :
    Loaded (ops.foldl (BeamCall.after f32) b).exp L M pol ∧
      ∃ v, (ops.foldl (BeamCall.after f32) b).normalized = .ret v ∧ (v = true ↔ .normalize ∈ ops) := by
  have key : ∀ (ops : List BeamCall) (b : PyBeam), Loaded b.exp L M pol → Loaded (ops.foldl (BeamCall.after f32) b).exp L M pol ∧
      ((ops.foldl (BeamCall.after f32) b).c.normalized = true ↔ b.c.normalized = true ∨ .normalize ∈ ops) := by
    intro ops
    induction ops with
    | nil => intro b h; exact ⟨h, by simp⟩
    | cons o os ih =>
      intro b h
      obtain ⟨h1, h2⟩ := after_loaded f32 h o
      obtain ⟨h3, h4⟩ := ih _ h1
      refine ⟨h3, ?_⟩
      rw [List.foldl_cons, h4, h2, List.mem_cons, or_assoc]
      exact or_congr Iff.rfl (or_congr eq_comm Iff.rfl)
  obtain ⟨h1, h2⟩ := key ops b h
  refine ⟨h1, (ops.foldl (BeamCall.after f32) b).c.normalized, ?_, by rw [h2, hn]; simp⟩
  unfold PyBeam.normalized
  cases (ops.foldl (BeamCall.after f32) b).c.normalized <;> simp

theorem getD_map_f32c (f32 : ℝ → ℝ) {t : List ℂ} {i : ℕ} (h : i < t.length) : (t.map (f32c f32)).getD i 0 = f32c f32 (t.getD i 0) := by
  simp [List.getD, h]

/-- **C57** (proved part): if in the history no `set_data` follows a `normalize()`, then whenever `normalized()` is `True` the
coefficients are normalised.  (Monopole coefficients that vanish in single precision are excluded.) -/
theorem C57_true_partial (f32 : ℝ → ℝ) {L M : ℤ} {pol : Bool} (ops : List BeamCall) {b : PyBeam} (h : Loaded b.exp L M pol)
    (hn : b.c.normalized = false) (h0 : MonoNe b)
    (hord : ∀ x, ¬ List.Sublist [BeamCall.normalize, .setData x] ops)
    (hne : ∀ x, .setData x ∈ ops → f32 ((x.getD 0 []).getD 0 0).re ≠ 0) :
    let b' := ops.foldl (BeamCall.after f32) b
    b'.normalized = .ret true → UnitBeam b' := by
  have hpi : √Real.pi ≠ 0 := (Real.sqrt_pos.mpr Real.pi_pos).ne'
  intro b' hb'
  have hb' : b'.c.normalized = true := by
    unfold PyBeam.normalized at hb'
    cases hx : b'.c.normalized with
    | true => rfl
    | false => rw [hx] at hb'; simp at hb'
  have key : ∀ (ops : List BeamCall) (b : PyBeam), Loaded b.exp L M pol →
      ((b.c.normalized = false ∧ MonoNe b ∧ ∀ x, ¬ List.Sublist [BeamCall.normalize, .setData x] ops) ∨
        (b.c.normalized = true ∧ UnitBeam b ∧ ∀ x, BeamCall.setData x ∉ ops)) →
      (∀ x, .setData x ∈ ops → f32 ((x.getD 0 []).getD 0 0).re ≠ 0) →
      (ops.foldl (BeamCall.after f32) b).c.normalized = true → UnitBeam (ops.foldl (BeamCall.after f32) b) := by
    intro ops
    induction ops with
    | nil =>
      rintro b - (⟨h1, -⟩ | ⟨-, h2, -⟩) - hb
      · rw [List.foldl_nil] at hb; rw [h1] at hb; cases hb
      · exact h2
    | cons o os ih =>
      intro b h hcase hne hb
      rw [List.foldl_cons] at hb ⊢
      have hL := (after_loaded f32 h o).1
      refine ih _ hL ?_ (fun x hx => hne x (List.mem_cons_of_mem _ hx)) hb
      cases o with
      | normalized =>
        rcases hcase with ⟨h1, h2, h3⟩ | ⟨h1, h2, h3⟩
        · exact Or.inl ⟨h1, h2, fun x hx => h3 x (hx.trans (List.sublist_cons_self _ _))⟩
        · exact Or.inr ⟨h1, h2, fun x hx => h3 x (List.mem_cons_of_mem _ hx)⟩
      | getData =>
        rcases hcase with ⟨h1, h2, h3⟩ | ⟨h1, h2, h3⟩
        · exact Or.inl ⟨h1, h2, fun x hx => h3 x (hx.trans (List.sublist_cons_self _ _))⟩
        · exact Or.inr ⟨h1, h2, fun x hx => h3 x (List.mem_cons_of_mem _ hx)⟩
      | setData x =>
        rcases hcase with ⟨h1, h2, h3⟩ | ⟨h1, h2, h3⟩
        · refine Or.inl ⟨h1, fun c hc => ?_, fun y hy => h3 y (hy.trans (List.sublist_cons_self _ _))⟩
          obtain ⟨-, p2, p3⟩ := (setData_any f32 h x).1
          simp only [BeamCall.after, PyBeam.setData] at hc
          rw [p3] at hc
          by_cases hk : 0 < goodPrefix b.exp.T.alm.length x (if pol = true then 3 else 1)
          · rw [if_pos hk] at hc
            have hlen := p2 0 hk
            have h0 := get00 (wf_with h.T (x := (x.getD 0 []).map (f32c f32)) (by rw [List.length_map, hlen]))
            have h0' := h0.2
            have hpos : 0 < (x.getD 0 []).length := by simpa using h0.1
            rw [getD_map_f32c f32 hpos] at h0'
            rw [h0'] at hc
            injection hc with hc
            rw [← hc]
            exact hne x (List.mem_cons_self)
          · rw [if_neg hk] at hc
            exact h2 c hc
        · exact absurd (List.mem_cons_self) (h3 x)
      | normalize =>
        rcases hcase with ⟨h1, h2, h3⟩ | ⟨h1, h2, h3⟩
        · obtain ⟨c, q1, -, q3, -, q5⟩ := (normalize_loaded h).2 h1
          refine Or.inr ⟨q3, ?_, fun x hx => h3 x ?_⟩
          · have hT : b.c.T.WF ∧ b.c.T.lmax = L ∧ b.c.T.mmax = M := h.T
            refine ⟨mulR (1 / (2 * √Real.pi * c.re)) c, ?_, ?_⟩
            · simp only [BeamCall.after]
              rw [q5]
              exact Alm.scale_get hT.1 _ ⟨le_refl _, hT.1.1, le_refl _, le_trans hT.1.1 hT.1.2.1⟩ q1
            · have := h2 c q1
              unfold mulR
              rw [Complex.re_mul_ofReal]
              field_simp
          · exact List.Sublist.cons_cons _ (List.singleton_sublist.mpr hx)
        · refine Or.inr ?_
          simp only [BeamCall.after]
          rw [(normalize_loaded h).1 h1]
          exact ⟨h1, h2, fun x hx => h3 x (List.mem_cons_of_mem _ hx)⟩
  exact key ops b h (Or.inl ⟨hn, h0, hord⟩) hne hb'

/-- **C57** fails after `set_data`: once `normalize()` has been called in the history, a successful `set_data(x)` leaves
`normalized()` at `True`, and a further `normalize()` returns 1 without touching the coefficients; they are normalised only if
the array given happened to be. -/
theorem C57_set_data_after (f32 : ℝ → ℝ) {L M : ℤ} {pol : Bool} (ops : List BeamCall) {b : PyBeam} (h : Loaded b.exp L M pol)
    (hn : b.c.normalized = false) (hops : .normalize ∈ ops) (x : List (List ℂ)) (hk : x.length = if pol then 3 else 1)
    (hsz : ∀ y ∈ x, (y.length : ℤ) = (M + 1) * (M + 2) / 2 + (M + 1) * (L - M)) :
    let b' := (ops ++ [BeamCall.setData x]).foldl (BeamCall.after f32) b
    b'.normalized = .ret true ∧ b'.normalize = (.ret 1, b') ∧
      (UnitBeam b' ↔ 2 * √Real.pi * f32 ((x.getD 0 []).getD 0 0).re = 1) := by
  intro b'
  obtain ⟨h1, v, h2, h3⟩ := C57_flag f32 (ops ++ [.setData x]) h hn
  have hv : v = true := h3.mpr (List.mem_append_left _ hops)
  rw [hv] at h2
  have hc : b'.c.normalized = true := by
    unfold PyBeam.normalized at h2
    cases hx : b'.c.normalized with
    | true => rfl
    | false => unfold b' at hx; rw [hx] at h2; simp at h2
  refine ⟨h2, (normalize_loaded h1).1 hc, ?_⟩
  obtain ⟨h4, -⟩ := C57_flag f32 ops h hn
  have hb : b' = ((ops.foldl (BeamCall.after f32) b).setData f32 x).2 := by
    unfold b'
    rw [List.foldl_append]
    rfl
  obtain ⟨e', g1, g2, -, g4, -⟩ := C54_set_data f32 h4 x hk hsz
  have hbT : b'.c.T = e'.T := by rw [hb]; simp only [PyBeam.setData]; rw [g1]
  have hx0 : 0 < (x.getD 0 []).length ∧ e'.T.get 0 0 = ok (((x.getD 0 []).map (f32c f32)).getD 0 0) := by
    have hw := g2.T
    obtain ⟨i, i1, i2, i3⟩ := g4.2 0 0 le_rfl (by rw [← hw.2.2]; exact hw.1.1) le_rfl
      (by rw [← hw.2.1]; exact le_trans hw.1.1 hw.1.2.1)
    have : i = 0 := by simpa using i1
    subst this
    exact ⟨by simpa using i2, i3⟩
  rw [getD_map_f32c f32 hx0.1] at hx0
  unfold UnitBeam
  rw [hbT, hx0.2]
  constructor
  · rintro ⟨c, hc, hu⟩
    injection hc with hc
    rw [← hc] at hu
    exact hu
  · intro hu
    exact ⟨_, rfl, hu⟩

/-- C57 as stated: whenever `normalized()` is `True`, the coefficients are normalised. -/
def C57_Full : Prop :=
  ∀ (f32 : ℝ → ℝ) (L M : ℤ) (pol : Bool) (ops : List BeamCall) (b : PyBeam), Loaded b.exp L M pol → b.c.normalized = false →
    MonoNe b → (∀ x, .setData x ∈ ops → f32 ((x.getD 0 []).getD 0 0).re ≠ 0) →
    (ops.foldl (BeamCall.after f32) b).normalized = .ret true → UnitBeam (ops.foldl (BeamCall.after f32) b)

/-! ## witnesses -/

/-- A polarised beam with `lmax = 1`, `mmax = 0`, as Python sees it. -/
noncomputable def pyBeamEx : PyBeam := ⟨beamEx, 1⟩

theorem pyBeamEx_loaded : Loaded pyBeamEx.exp 1 0 true := by
  have hw : ∀ x y : ℂ, (⟨1, 0, [x, y]⟩ : Alm ℂ).WF ∧ (⟨1, 0, [x, y]⟩ : Alm ℂ).lmax = 1 ∧ (⟨1, 0, [x, y]⟩ : Alm ℂ).mmax = 0 := by
    intro x y; exact ⟨⟨le_refl _, zero_le_one, by simp [numAlms]⟩, rfl, rfl⟩
  exact ⟨rfl, rfl, hw _ _, fun _ => ⟨hw _ _, hw _ _⟩, rfl, by simp [pyBeamEx, PyBeam.exp]⟩

theorem pyBeamEx_mono : MonoNe pyBeamEx := by
  intro c hc
  have hc' := (get00 pyBeamEx_loaded.T).2
  have hc : pyBeamEx.exp.T.get 0 0 = ok c := hc
  rw [hc'] at hc
  have : (2 : ℂ) = c := by injection hc
  rw [← this]; norm_num

/-- An array triple that is not normalised. -/
noncomputable def dataEx : List (List ℂ) := [[1, 0], [0, 0], [0, 0]]

theorem dataEx_len : ∀ y ∈ dataEx, (y.length : ℤ) = (0 + 1) * (0 + 2) / 2 + (0 + 1) * (1 - 0) := by
  intro y hy
  have h2 : y.length = 2 := by
    simp only [dataEx, List.mem_cons, List.not_mem_nil, or_false] at hy
    rcases hy with rfl | rfl | rfl <;> rfl
  rw [h2]; norm_num

theorem two_sqrt_pi_ne : 2 * √Real.pi ≠ 1 := by
  intro h4
  have hsq : (2 * √Real.pi) ^ 2 = 1 := by rw [h4]; norm_num
  rw [mul_pow, Real.sq_sqrt Real.pi_pos.le] at hsq
  have := Real.pi_gt_three
  linarith

theorem dataEx_re : ((dataEx.getD 0 []).getD 0 0).re = 1 := by simp [dataEx]

theorem C57_full_refuted : ¬ C57_Full := by
  intro hF
  have hk : dataEx.length = if true then 3 else 1 := rfl
  obtain ⟨h1, -, h3⟩ := C57_set_data_after id (L := 1) (M := 0) (pol := true) [.normalize] (b := pyBeamEx) pyBeamEx_loaded rfl
    (List.mem_singleton_self _) dataEx hk dataEx_len
  have := hF id 1 0 true ([.normalize] ++ [.setData dataEx]) pyBeamEx pyBeamEx_loaded rfl pyBeamEx_mono
    (by
      intro x hx
      have : x = dataEx := by
        simp only [List.cons_append, List.nil_append, List.mem_cons, reduceCtorEq, BeamCall.setData.injEq, List.not_mem_nil, or_false,
          false_or] at hx
        exact hx
      subst this
      show (((dataEx.getD 0 []).getD 0 0).re : ℝ) ≠ 0
      rw [dataEx_re]
      exact one_ne_zero) (by exact h1)
  have h4 := h3.mp this
  have h5 : 2 * √Real.pi * ((dataEx.getD 0 []).getD 0 0).re = 1 := h4
  rw [dataEx_re, mul_one] at h5
  exact two_sqrt_pi_ne h5

/-- The history `set_data; normalize; get_data; normalized` meets the hypotheses of `C57_true_partial`. -/
example : UnitBeam (([.setData [[5, 0], [0, 0], [0, 0]], .normalize, .getData, .normalized] : List BeamCall).foldl
    (BeamCall.after id) pyBeamEx) := by
  refine C57_true_partial id _ pyBeamEx_loaded rfl pyBeamEx_mono ?_ ?_ ?_
  · intro x hx
    have h2 : List.Sublist [BeamCall.setData x] [.getData, .normalized] := by
      cases hx with
      | cons _ h => cases h with
        | cons _ h => cases h with
          | cons _ h => cases h with
            | cons _ h => cases h
        | cons_cons _ h => exact h
    have := h2.subset (List.mem_singleton_self _)
    simp at this
  · intro x hx
    simp at hx
    subst hx
    simp
  · obtain ⟨-, v, h1, h2⟩ := C57_flag id [.setData [[5, 0], [0, 0], [0, 0]], .normalize, .getData, .normalized] pyBeamEx_loaded rfl
    rw [h1, h2.mpr (by simp)]

/-- `C54_get_data`, `C54_set_data` at a concrete polarised beam. -/
example : (∃ t g c, pyBeamEx.getData = .ret [t, g, c] ∧ Lists 1 0 pyBeamEx.exp.T t) ∧
    ∃ e', setData id pyBeamEx.exp dataEx = (.ret (), e') ∧ getData e' = .ret (dataEx.map (List.map (f32c id))) := by
  constructor
  · obtain ⟨t, g, c, h1, h2, -⟩ := (C54_get_data pyBeamEx_loaded).2 rfl
    exact ⟨t, g, c, h1, h2⟩
  · obtain ⟨e', h1, -, h2, -⟩ := C54_set_data id pyBeamEx_loaded dataEx rfl dataEx_len
    exact ⟨e', h1, h2⟩

end Verif.Py
