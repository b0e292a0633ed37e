import Verif.Api.HandleSpec

/-!
# Handles of the C interface: the client's view agrees with the heap
-/

namespace Verif.Handle
open Verif Res Verif.Obj Verif.Harm

theorem since_frame {α : Type} (start : Event → α) (f : ℕ → Event → α → α) (e : Event) (t : List Event) (a : ℕ)
    (h : (made e).map Prod.fst ≠ some a) (hf : ∀ v, f a e v = v) : since start f (e :: t) a = since start f t a := by
  rw [since, if_neg h]
  have : f a e = id := funext hf
  rw [this]; simp

theorem since_made {α : Type} (start : Event → α) (f : ℕ → Event → α → α) (e : Event) (t : List Event) (a : ℕ)
    (h : (made e).map Prod.fst = some a) : since start f (e :: t) a = some (start e) := by
  rw [since, if_pos h]

theorem since_acts {α : Type} (start : Event → α) (f : ℕ → Event → α → α) (e : Event) (t : List Event) (a : ℕ)
    (h : (made e).map Prod.fst ≠ some a) : since start f (e :: t) a = (since start f t a).map (f a e) := by
  rw [since, if_neg h]

/-- Whether a handle was ever made does not depend on what is computed since. -/
theorem since_transfer {α β : Type} {start : Event → α} {f : ℕ → Event → α → α} (start' : Event → β)
    (f' : ℕ → Event → β → β) {t : List Event} {a : ℕ} {v : α} (h : since start f t a = some v) :
    ∃ w, since start' f' t a = some w := by
  induction t generalizing v with
  | nil => cases h
  | cons e t ih =>
    unfold since at h ⊢
    by_cases hm : (made e).map Prod.fst = some a
    · rw [if_pos hm]; exact ⟨_, rfl⟩
    · rw [if_neg hm] at h ⊢
      obtain ⟨u, hu, -⟩ := Option.map_eq_some_iff.mp h
      obtain ⟨w, hw⟩ := ih hu
      rw [hw]; exact ⟨_, rfl⟩

theorem kindOf_frame (e : Event) (t : List Event) (a : ℕ) (h1 : (made e).map Prod.fst ≠ some a) (h2 : e.1.deletes ≠ some a) :
    kindOf (e :: t) a = kindOf t a := by
  conv => lhs; unfold kindOf
  cases hm : made e with
  | none => dsimp only; rw [if_neg h2]
  | some bk =>
    obtain ⟨b, k⟩ := bk
    rw [hm] at h1
    simp only [Option.map_some, ne_eq, Option.some.injEq] at h1
    dsimp only
    rw [if_neg (fun h => h1 h.symm)]

theorem touches_deletes {e : Event} {a : ℕ} (h : ¬touches e a) : e.1.deletes ≠ some a := by
  obtain ⟨c, r⟩ := e
  intro h'
  cases c <;> simp [Call.deletes] at h'
  exact h (.inr h')

theorem touches_made {e : Event} {a : ℕ} (h : ¬touches e a) : (made e).map Prod.fst ≠ some a := fun h' => h (.inl h')

/-- Not acting on a handle: nothing changes in the client's view of it. -/
theorem view_frame {e : Event} {a : ℕ} (h : ¬touches e a) (t : List Event) :
    kindOf (e :: t) a = kindOf t a ∧ lastEps (e :: t) a = lastEps t a ∧ lastId (e :: t) a = lastId t a ∧
    isNorm (e :: t) a = isNorm t a ∧ reads (e :: t) a = reads t a ∧ held (e :: t) a = held t a ∧ cells (e :: t) a = cells t a ∧
    lims (e :: t) a = lims t a := by
  have hm := touches_made h
  have hd := touches_deletes h
  obtain ⟨c, r⟩ := e
  refine ⟨kindOf_frame _ _ _ hm hd, ?_, ?_, ?_, ?_, ?_, ?_, ?_⟩
  · unfold lastEps; rw [since_frame _ _ _ _ _ hm (fun v => ?_)]
    cases c <;> first | rfl | (exact if_neg (fun h' => h (.inr h')))
  · unfold lastId; rw [since_frame _ _ _ _ _ hm (fun v => ?_)]
    cases c <;> first | rfl | (exact if_neg (fun h' => h (.inr h')))
  · unfold isNorm; rw [since_frame _ _ _ _ _ hm (fun v => ?_)]
    cases c <;> first | rfl | (exact if_neg (fun h' => h (.inr h')))
  · unfold reads; rw [since_frame _ _ _ _ _ hm (fun v => ?_)]
    cases c <;> cases r <;> first | rfl | (exact if_neg (fun h' => h (.inr h')))
  · unfold held; rw [since_frame _ _ _ _ _ hm (fun v => ?_)]
    cases c <;> first | rfl | (exact if_neg (fun h' => h (.inr h')))
  · unfold cells; rw [since_frame _ _ _ _ _ hm (fun v => ?_)]
    cases c <;> cases r <;> first | rfl | (exact if_neg (fun h' => h (.inr h'))) | (exact if_neg (fun h' => h (.inr (.inr h'))))
  · unfold lims; rw [since_frame _ _ _ _ _ hm (fun v => ?_)]
    cases c <;> first | rfl | (exact if_neg (fun h' => h (.inr h')))

/-! ## the invariant -/

def PntOK (x : Pnt) (l : List (Option ℝ)) : Prop :=
  x.size = l.length ∧ x.size < 9223372036854775808 ∧ ((l = [] ∧ x.buf = .null) ∨ (l ≠ [] ∧ x.buf = .own l))

/-- The client's view of a handle describes the object. -/
def CellOK (es : List Event) (a : ℕ) : Option Cell → Prop
  | none => kindOf es a = none
  | some (.sky x) => kindOf es a = some .sky ∧ lims es a = some (x.lmax, none) ∧ ∃ r, reads es a = some r ∧ (r ≠ .bad → Sound x.T x.G x.C) ∧
      (r = .good → x.lmax.isSome)
  | some (.beam x) => kindOf es a = some .beam ∧ x.normalized = isNorm es a ∧ lims es a = some (x.lmax, x.mmax) ∧ ∃ r, reads es a = some r ∧
      (r ≠ .bad → Sound x.T x.G x.C) ∧ (r = .good → x.lmax.isSome ∧ x.mmax.isSome ∧ x.pol.isSome)
  | some (.det x) => kindOf es a = some .det ∧ x.eps = lastEps es a ∧ some x.id = lastId es a
  | some (.pnt x) => kindOf es a = some .pnt ∧ ∀ l, cells es a = some l → PntOK x l
  | some (.conv x) => kindOf es a = some .conv ∧ held es a = some (x.s, x.b, x.d)

structure Inv (es : List Event) (h : Heap) : Prop where
  zero : h 0 = none
  cell : ∀ a, CellOK es a (h a)

theorem cell_frame {e : Event} {a : ℕ} (ht : ¬touches e a) {t : List Event} {c : Option Cell} (h : CellOK t a c) :
    CellOK (e :: t) a c := by
  obtain ⟨h1, h2, h3, h4, h5, h6, h7, h8⟩ := view_frame ht t
  unfold CellOK at *
  split <;> simp only [h1, h2, h3, h4, h5, h6, h7, h8] <;> exact h

theorem inv_same {e : Event} {t : List Event} {h : Heap} (hi : Inv t h) (ht : ∀ a, ¬touches e a) : Inv (e :: t) h :=
  ⟨hi.zero, fun a => cell_frame (ht a) (hi.cell a)⟩

theorem inv_put {e : Event} {t : List Event} {h : Heap} (hi : Inv t h) {p : ℕ} {c : Cell} (hp : p ≠ 0)
    (ht : ∀ a, a ≠ p → ¬touches e a) (hc : CellOK (e :: t) p (some c)) : Inv (e :: t) (put h p c) := by
  refine ⟨by unfold put; rw [Function.update_of_ne hp.symm]; exact hi.zero, fun a => ?_⟩
  by_cases ha : a = p
  · subst ha; unfold put; rw [Function.update_self]; exact hc
  · unfold put; rw [Function.update_of_ne ha]; exact cell_frame (ht a ha) (hi.cell a)

theorem ne_zero {t : List Event} {h : Heap} (hi : Inv t h) {p : ℕ} {c : Cell} (hp : h p = some c) : p ≠ 0 := by
  intro h0; rw [h0, hi.zero] at hp; cases hp

/-! ## dereferencing -/

theorem skyAt_ok {h : Heap} {p : ℕ} {x : Sky} (e : skyAt h p = ok x) : h p = some (.sky x) := by
  unfold skyAt at e; split at e <;> cases e; assumption
theorem beamAt_ok {h : Heap} {p : ℕ} {x : Beam} (e : beamAt h p = ok x) : h p = some (.beam x) := by
  unfold beamAt at e; split at e <;> cases e; assumption
theorem detAt_ok {h : Heap} {p : ℕ} {x : Det} (e : detAt h p = ok x) : h p = some (.det x) := by
  unfold detAt at e; split at e <;> cases e; assumption
theorem pntAt_ok {h : Heap} {p : ℕ} {x : Pnt} (e : pntAt h p = ok x) : h p = some (.pnt x) := by
  unfold pntAt at e; split at e <;> cases e; assumption
theorem convAt_ok {h : Heap} {p : ℕ} {x : Conv} (e : convAt h p = ok x) : h p = some (.conv x) := by
  unfold convAt at e; split at e <;> cases e; assumption

theorem sky_of {t : List Event} {h : Heap} (hi : Inv t h) {p : ℕ} (hk : kindOf t p = some .sky) :
    ∃ x, h p = some (.sky x) ∧ skyAt h p = ok x := by
  have := hi.cell p
  cases hp : h p with
  | none => rw [hp] at this; simp only [CellOK] at this; rw [this] at hk; cases hk
  | some c =>
    rw [hp] at this
    cases c with
    | sky x => exact ⟨x, rfl, by unfold skyAt; rw [hp]⟩
    | _ => have := this.1; rw [hk] at this; cases this

theorem beam_of {t : List Event} {h : Heap} (hi : Inv t h) {p : ℕ} (hk : kindOf t p = some .beam) :
    ∃ x, h p = some (.beam x) ∧ beamAt h p = ok x := by
  have := hi.cell p
  cases hp : h p with
  | none => rw [hp] at this; simp only [CellOK] at this; rw [this] at hk; cases hk
  | some c =>
    rw [hp] at this
    cases c with
    | beam x => exact ⟨x, rfl, by unfold beamAt; rw [hp]⟩
    | _ => have := this.1; rw [hk] at this; cases this

theorem det_of {t : List Event} {h : Heap} (hi : Inv t h) {p : ℕ} (hk : kindOf t p = some .det) :
    ∃ x, h p = some (.det x) ∧ detAt h p = ok x := by
  have := hi.cell p
  cases hp : h p with
  | none => rw [hp] at this; simp only [CellOK] at this; rw [this] at hk; cases hk
  | some c =>
    rw [hp] at this
    cases c with
    | det x => exact ⟨x, rfl, by unfold detAt; rw [hp]⟩
    | _ => have := this.1; rw [hk] at this; cases this

theorem pnt_of {t : List Event} {h : Heap} (hi : Inv t h) {p : ℕ} (hk : kindOf t p = some .pnt) :
    ∃ x, h p = some (.pnt x) ∧ pntAt h p = ok x := by
  have := hi.cell p
  cases hp : h p with
  | none => rw [hp] at this; simp only [CellOK] at this; rw [this] at hk; cases hk
  | some c =>
    rw [hp] at this
    cases c with
    | pnt x => exact ⟨x, rfl, by unfold pntAt; rw [hp]⟩
    | _ => have := this.1; rw [hk] at this; cases this

theorem conv_of {t : List Event} {h : Heap} (hi : Inv t h) {p : ℕ} (hk : kindOf t p = some .conv) :
    ∃ x, h p = some (.conv x) ∧ convAt h p = ok x := by
  have := hi.cell p
  cases hp : h p with
  | none => rw [hp] at this; simp only [CellOK] at this; rw [this] at hk; cases hk
  | some c =>
    rw [hp] at this
    cases c with
    | conv x => exact ⟨x, rfl, by unfold convAt; rw [hp]⟩
    | _ => have := this.1; rw [hk] at this; cases this

/-! ## coefficients -/

theorem wf_ne_nil {a : Alm ℂ} (h : a.WF) : a.alm ≠ [] := by
  intro h0
  obtain ⟨v, hv⟩ := Alm.get_ok h (l := 0) (m := 0) ⟨le_refl _, h.1, le_refl _, le_trans h.1 h.2.1⟩
  unfold Alm.get at hv
  rw [h0] at hv
  unfold rd at hv
  split at hv
  · rename_i h1; simp at h1
  · cases hv

theorem fresh_sound (j : ℂ) : Sound (almDefault j) (almDefault j) (almDefault j) := by
  have : (almDefault j).WF := by unfold Alm.WF almDefault; simp [numAlms]
  exact ⟨this, wf_ne_nil this, wf_ne_nil this, wf_ne_nil this⟩

theorem scale_ne_nil {a : Alm ℂ} (h : a.alm ≠ []) (f : ℂ → ℂ) : (a.scale f).alm ≠ [] := by
  unfold Alm.scale; simpa using h

theorem rmMono_ok {s : Sky} (h : Sound s.T s.G s.C) :
    ∃ s', removeMonopole s = ok s' ∧ Sound s'.T s'.G s'.C ∧ s'.lmax = s.lmax := by
  obtain ⟨s1, h1, h2, h3, -⟩ := C33_remove s h.1 [.monopole]
  have : foldRes SkyOp.run s [.monopole] = (removeMonopole s >>= fun t => ok t) := rfl
  rw [this] at h1
  refine ⟨s1, ?_, ⟨h3, wf_ne_nil h3, ?_, ?_⟩, ?_⟩
  · cases hr : removeMonopole s <;> rw [hr] at h1 <;> exact h1
  all_goals rw [h2]
  · exact h.2.2.1
  · exact h.2.2.2

theorem rmDip_ok {s : Sky} (h : Sound s.T s.G s.C) :
    ∃ s', removeDipole s = ok s' ∧ Sound s'.T s'.G s'.C ∧ s'.lmax = s.lmax := by
  obtain ⟨s1, h1, h2, h3, -⟩ := C33_remove s h.1 [.dipole]
  have : foldRes SkyOp.run s [.dipole] = (removeDipole s >>= fun t => ok t) := rfl
  rw [this] at h1
  refine ⟨s1, ?_, ⟨h3, wf_ne_nil h3, ?_, ?_⟩, ?_⟩
  · cases hr : removeDipole s <;> rw [hr] at h1 <;> exact h1
  all_goals rw [h2]
  · exact h.2.2.1
  · exact h.2.2.2

theorem normalize_done {b : Beam} (h : b.normalized = true) : Obj.normalize b = ok (1, b) := by
  unfold Obj.normalize; rw [if_pos h]

theorem normalize_ok {b : Beam} (hs : Sound b.T b.G b.C) (hp : b.pol.isSome) :
    ∃ s b', Obj.normalize b = ok (s, b') := by
  by_cases hn : b.normalized = true
  · exact ⟨_, _, normalize_done hn⟩
  · obtain ⟨c, hc⟩ := Alm.get_ok hs.1 (l := 0) (m := 0) ⟨le_refl _, hs.1.1, le_refl _, le_trans hs.1.1 hs.1.2.1⟩
    obtain ⟨p, hp⟩ := Option.isSome_iff_exists.mp hp
    unfold Obj.normalize
    rw [if_neg hn, if_pos (le_trans hs.1.1 hs.1.2.1), hc, ok_bind]
    dsimp only
    rw [hp]
    exact ⟨_, _, rfl⟩

/-- Whatever `normalize` does to a beam: the mark is set, limits and polarisation stay, coefficients stay in order. -/
theorem normalize_effect {b b' : Beam} {s : ℝ} (h : Obj.normalize b = ok (s, b')) :
    b'.normalized = true ∧ b'.lmax = b.lmax ∧ b'.mmax = b.mmax ∧ b'.pol = b.pol ∧
      (Sound b.T b.G b.C → Sound b'.T b'.G b'.C) := by
  unfold Obj.normalize at h
  by_cases hn : b.normalized = true
  · rw [if_pos hn] at h; injection h with h; injection h with h1 h2; subst h2
    exact ⟨hn, rfl, rfl, rfl, id⟩
  · rw [if_neg hn] at h
    by_cases hl : 0 ≤ b.T.lmax
    · rw [if_pos hl] at h
      obtain ⟨c, -, h⟩ := bind_eq_ok.mp h
      dsimp only at h
      cases hp : b.pol with
      | none => rw [hp] at h; cases h
      | some p =>
        rw [hp] at h
        injection h with h; injection h with h1 h2; subst h2
        refine ⟨rfl, rfl, rfl, rfl, fun hs => ⟨Alm.scale_wf hs.1 _, scale_ne_nil hs.2.1 _, ?_, ?_⟩⟩
        · dsimp only; split
          · exact scale_ne_nil hs.2.2.1 _
          · exact hs.2.2.1
        · dsimp only; split
          · exact scale_ne_nil hs.2.2.2 _
          · exact hs.2.2.2
    · rw [if_neg hl] at h; injection h with h; injection h with h1 h2; subst h2
      exact ⟨rfl, rfl, rfl, rfl, id⟩

/-- A constructor makes a convolver that refers to its arguments. -/
theorem ctor_refs {w : World} {s b d : ℕ} {pol : Bool} {l m o : ℤ} {x : Conv} (h : ctor w s b d pol l m o = ok x) :
    x.s = s ∧ x.b = b ∧ x.d = d := by
  unfold ctor at h
  obtain ⟨_, -, h⟩ := bind_eq_ok.mp h
  obtain ⟨_, -, h⟩ := bind_eq_ok.mp h
  obtain ⟨_, -, h⟩ := bind_eq_ok.mp h
  obtain ⟨_, -, h⟩ := bind_eq_ok.mp h
  obtain ⟨_, -, h⟩ := bind_eq_ok.mp h
  injection h with h; subst h
  exact ⟨rfl, rfl, rfl⟩

end Verif.Handle
