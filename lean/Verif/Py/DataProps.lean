import Verif.Py.Data
import Verif.Api.ReadProps

/-! # C54, C55: the Python data access -/

namespace Verif.Py
open Verif Res Verif.Obj Verif.Harm Val

/-! ## specification -/

/-- A Python object that has been loaded with the limits `L`, `M`: the expansions in use have these limits, the object reports
them, and the Python flag agrees with the C++ flag. -/
structure Loaded (e : Exp) (L M : ℤ) (pol : Bool) : Prop where
  lmax : e.lmax = some L
  mmax : e.mmax = some M
  T : e.T.WF ∧ e.T.lmax = L ∧ e.T.mmax = M
  GC : pol = true → (e.G.WF ∧ e.G.lmax = L ∧ e.G.mmax = M) ∧ (e.C.WF ∧ e.C.lmax = L ∧ e.C.mmax = M)
  cpol : e.cpol = some pol
  pyPol : e.pyPol ≠ 0 ↔ pol = true

/-- The array `x` lists the coefficients of `a` with limits `L`, `M`: it has one entry for each `0 ≤ m ≤ M`, `m ≤ l ≤ L`, and
`a_lm` is entry number `m (2L + 1 - m) / 2 + l` (the order used by HEALPix and healpy). -/
def Lists (L M : ℤ) (a : Alm ℂ) (x : List ℂ) : Prop :=
  (x.length : ℤ) = (M + 1) * (M + 2) / 2 + (M + 1) * (L - M) ∧
  ∀ l m, 0 ≤ m → m ≤ M → m ≤ l → l ≤ L → ∃ i : ℕ, (i : ℤ) = m * (2 * L + 1 - m) / 2 + l ∧ i < x.length ∧ a.get l m = ok (x.getD i 0)

theorem wf_len {a : Alm ℂ} (h : a.WF) : (a.alm.length : ℤ) = (a.mmax + 1) * (a.mmax + 2) / 2 + (a.mmax + 1) * (a.lmax - a.mmax) := by
  have := h.2.2
  unfold numAlms at this
  rw [if_pos h.2.1] at this
  injection this with this
  exact this.symm

theorem lists_self {a : Alm ℂ} {L M : ℤ} (h : a.WF ∧ a.lmax = L ∧ a.mmax = M) : Lists L M a a.alm := by
  obtain ⟨hw, rfl, rfl⟩ := h
  refine ⟨wf_len hw, fun l m h0 h1 h2 h3 => ?_⟩
  obtain ⟨i0, i1⟩ := a.idx_ok hw ⟨h0, h1, h2, h3⟩
  refine ⟨(index a.lmax l m).toNat, by rw [Int.toNat_of_nonneg i0]; rfl, i1, ?_⟩
  unfold Alm.get
  rw [rd_ok i0 i1]
  simp [List.getD, i1]

theorem numAlmsPy_loaded {e : Exp} {L M : ℤ} {pol : Bool} (h : Loaded e L M pol) : numAlmsPy e = .ret (e.T.alm.length : ℤ) := by
  unfold numAlmsPy
  rw [h.lmax, h.mmax]
  simp only [knownV, ret_bind]
  have := wf_len h.T.1
  rw [h.T.2.1, h.T.2.2] at this
  rw [this]

theorem len_eq {a b : Alm ℂ} {L M : ℤ} (ha : a.WF ∧ a.lmax = L ∧ a.mmax = M) (hb : b.WF ∧ b.lmax = L ∧ b.mmax = M) :
    a.alm.length = b.alm.length := by
  have h1 := wf_len ha.1
  have h2 := wf_len hb.1
  rw [ha.2.1, ha.2.2] at h1
  rw [hb.2.1, hb.2.2] at h2
  exact_mod_cast h1.trans h2.symm

theorem getData_loaded {e : Exp} {L M : ℤ} {pol : Bool} (h : Loaded e L M pol) :
    getData e = .ret (if pol then [e.T.alm, e.G.alm, e.C.alm] else [e.T.alm]) := by
  unfold getData
  rw [numAlmsPy_loaded h]
  simp only [ret_bind, dataT]
  rw [fetch_floats _ rfl]
  simp only [ret_bind]
  cases pol with
  | false =>
    have : ¬ e.pyPol ≠ 0 := fun hx => by simpa using h.pyPol.mp hx
    rw [if_neg this]
    simp
  | true =>
    have hg := h.GC rfl
    rw [if_pos (h.pyPol.mpr rfl), h.cpol]
    simp only [dataP, ret_bind]
    rw [fetch_floats e.G.alm (by rw [len_eq h.T hg.1])]
    simp only [ret_bind]
    rw [fetch_floats e.C.alm (by rw [len_eq h.T hg.2])]
    simp

/-- **C54** (reading): `get_data()` of a loaded object reads inside the storage of the object and returns one array per
component (one without, three with polarisation), listing exactly its coefficients in HEALPix order. -/
theorem C54_get_data {e : Exp} {L M : ℤ} {pol : Bool} (h : Loaded e L M pol) :
    (pol = false → ∃ t, getData e = .ret [t] ∧ Lists L M e.T t) ∧
    (pol = true → ∃ t g c, getData e = .ret [t, g, c] ∧ Lists L M e.T t ∧ Lists L M e.G g ∧ Lists L M e.C c) := by
  have hd := getData_loaded h
  refine ⟨fun hp => ⟨e.T.alm, ?_, lists_self h.T⟩, fun hp => ⟨e.T.alm, e.G.alm, e.C.alm, ?_, lists_self h.T, lists_self (h.GC hp).1,
    lists_self (h.GC hp).2⟩⟩
  · rw [hd, hp]; rfl
  · rw [hd, hp]; rfl

/-- The expansion with other coefficients. -/
theorem putMem_floats (a : Alm ℂ) (x : List ℂ) : putMem a (floats x) = { a with alm := x } := by
  unfold putMem; rw [pack_floats]

theorem wf_with {a : Alm ℂ} {L M : ℤ} (h : a.WF ∧ a.lmax = L ∧ a.mmax = M) {x : List ℂ} (hx : x.length = a.alm.length) :
    ({ a with alm := x } : Alm ℂ).WF ∧ ({ a with alm := x } : Alm ℂ).lmax = L ∧ ({ a with alm := x } : Alm ℂ).mmax = M := by
  refine ⟨?_, h.2.1, h.2.2⟩
  have := h.1
  unfold Alm.WF at this ⊢
  simp only [hx]
  exact this

/-- What `set_data(x)` leaves, by the value of the polarisation flag. -/
theorem setData_loaded (f32 : ℝ → ℝ) {e : Exp} {L M : ℤ} {pol : Bool} (h : Loaded e L M pol) (t : List ℂ) (rest : List (List ℂ))
    (ht : t.length = e.T.alm.length) :
    (pol = false → setData f32 e (t :: rest) = (.ret (), { e with T := { e.T with alm := t.map (f32c f32) } })) ∧
    (pol = true → ∀ g c rest', rest = g :: c :: rest' → g.length = e.T.alm.length → c.length = e.T.alm.length →
      setData f32 e (t :: rest) = (.ret (), { e with
        T := { e.T with alm := t.map (f32c f32) }
        G := { e.G with alm := g.map (f32c f32) }
        C := { e.C with alm := c.map (f32c f32) } })) := by
  have hne : ¬((t.length : ℤ) ≠ (e.T.alm.length : ℤ)) := by rw [ht]; exact fun h => h rfl
  have hnl : ((e.T.alm.length : ℤ) * 2).toNat = 2 * e.T.alm.length := by omega
  have hT := storeComp_ok f32 e.T.alm t (List.replicate (2 * e.T.alm.length) 0) (nelem := 2 * e.T.alm.length) rfl (by simp) ht
  have hlen : ∀ x : List ℂ, x.length = e.T.alm.length → (floats (x.map (f32c f32))).length = 2 * e.T.alm.length := fun x hx => by
    rw [floats_length, List.length_map, hx]
  constructor
  · intro hp
    have hpy : ¬ e.pyPol ≠ 0 := fun hx => by rw [hp] at h; simpa using h.pyPol.mp hx
    unfold setData
    rw [numAlmsPy_loaded h]
    simp only [ret_andThen, List.getElem?_cons_zero]
    rw [if_neg hne, hnl]
    unfold dataT
    rw [hT]
    simp only [ret_andThen]
    rw [if_neg hpy, putMem_floats]
  · rintro hp g c rest' rfl hg hc
    have hpy : e.pyPol ≠ 0 := h.pyPol.mpr hp
    have hgc := h.GC hp
    unfold setData
    rw [numAlmsPy_loaded h]
    simp only [ret_andThen, List.getElem?_cons_zero]
    rw [if_neg hne, hnl]
    unfold dataT
    rw [hT]
    simp only [ret_andThen, List.getElem?_cons_succ, List.getElem?_cons_zero]
    rw [if_pos hpy, h.cpol, hp]
    simp only [dataP]
    rw [storeComp_ok f32 e.G.alm g _ (by rw [len_eq h.T hgc.1]) (hlen t ht) (by rw [hg, len_eq h.T hgc.1])]
    simp only [ret_andThen]
    rw [storeComp_ok f32 e.C.alm c _ (by rw [len_eq h.T hgc.2]) (hlen g hg) (by rw [hc, len_eq h.T hgc.2])]
    simp only [ret_andThen]
    rw [putMem_floats, putMem_floats, putMem_floats]

/-- **C54** (writing): `set_data(x)` with one array (three with polarisation) of `num_alms()` values writes inside the storage,
keeps limits and flags, and afterwards `get_data()` returns the values given, rounded to single precision; entry number
`m (2L + 1 - m) / 2 + l` has become `a_lm`.  Without polarisation `G`, `C` are untouched. -/
theorem C54_set_data (f32 : ℝ → ℝ) {e : Exp} {L M : ℤ} {pol : Bool} (h : Loaded e L M pol) (xs : List (List ℂ))
    (hk : xs.length = if pol then 3 else 1)
    (hn : ∀ x ∈ xs, (x.length : ℤ) = (M + 1) * (M + 2) / 2 + (M + 1) * (L - M)) :
    ∃ e', setData f32 e xs = (.ret (), e') ∧ Loaded e' L M pol ∧ getData e' = .ret (xs.map (List.map (f32c f32))) ∧
      Lists L M e'.T ((xs.getD 0 []).map (f32c f32)) ∧
      (pol = true → Lists L M e'.G ((xs.getD 1 []).map (f32c f32)) ∧ Lists L M e'.C ((xs.getD 2 []).map (f32c f32))) ∧
      (pol = false → e'.G = e.G ∧ e'.C = e.C) := by
  have hTl := wf_len h.T.1
  rw [h.T.2.1, h.T.2.2] at hTl
  have hlen : ∀ x ∈ xs, x.length = e.T.alm.length := fun x hx => by exact_mod_cast (hn x hx).trans hTl.symm
  cases pol with
  | false =>
    obtain ⟨t, rfl⟩ := List.length_eq_one_iff.mp (by simpa using hk)
    have ht := hlen t (by simp)
    have hw := wf_with h.T (x := t.map (f32c f32)) (by rw [List.length_map, ht])
    have hs := (setData_loaded f32 h t [] ht).1 rfl
    have hL : Loaded { e with T := { e.T with alm := t.map (f32c f32) } } L M false :=
      ⟨h.lmax, h.mmax, hw, (fun hx => by cases hx), h.cpol, h.pyPol⟩
    refine ⟨_, hs, hL, ?_, ?_, (fun hx => by cases hx), fun _ => ⟨rfl, rfl⟩⟩
    · rw [getData_loaded hL]; rfl
    · exact lists_self hw
  | true =>
    obtain ⟨t, g, c, rfl⟩ := List.length_eq_three.mp (by simpa using hk)
    have ht := hlen t (by simp)
    have hg := hlen g (by simp)
    have hc := hlen c (by simp)
    have hgc := h.GC rfl
    have hwT := wf_with h.T (x := t.map (f32c f32)) (by rw [List.length_map, ht])
    have hwG := wf_with hgc.1 (x := g.map (f32c f32)) (by rw [List.length_map, hg, len_eq h.T hgc.1])
    have hwC := wf_with hgc.2 (x := c.map (f32c f32)) (by rw [List.length_map, hc, len_eq h.T hgc.2])
    have hs := (setData_loaded f32 h t [g, c] ht).2 rfl g c [] rfl hg hc
    have hL : Loaded { e with
        T := { e.T with alm := t.map (f32c f32) }
        G := { e.G with alm := g.map (f32c f32) }
        C := { e.C with alm := c.map (f32c f32) } } L M true := ⟨h.lmax, h.mmax, hwT, fun _ => ⟨hwG, hwC⟩, h.cpol, h.pyPol⟩
    refine ⟨_, hs, hL, ?_, ?_, fun _ => ⟨?_, ?_⟩, (fun hx => by cases hx)⟩
    · rw [getData_loaded hL]; rfl
    · exact lists_self hwT
    · exact lists_self hwG
    · exact lists_self hwC

end Verif.Py
