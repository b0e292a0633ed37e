import Verif.Api.HandleProof

/-!
# Handles of the C interface: every step keeps the client's view, and well-used calls are defined
-/

namespace Verif.Handle
open Verif Res Verif.Obj Verif.Harm

theorem kindOf_made {e : Event} {t : List Event} {a : ℕ} {k : Kind} (h : made e = some (a, k)) : kindOf (e :: t) a = some k := by
  conv => lhs; unfold kindOf
  rw [h]; simp

theorem made_at {c : Call} {k : Kind} {a : ℕ} (hc : c.makes = some k) (ha : a ≠ 0) : made (c, .ptr a) = some (a, k) := by
  unfold made; rw [hc]; simp [ha]

theorem made_none {c : Call} {r : Ret} (hc : c.makes = none) : made (c, r) = none := by
  unfold made; rw [hc]

theorem made_ne {c : Call} {r : Ret} (hc : c.makes = none) (a : ℕ) : (made (c, r)).map Prod.fst ≠ some a := by
  rw [made_none hc]; simp

theorem made_null {c : Call} : made (c, .ptr 0) = none := by
  unfold made; split <;> simp_all

theorem made_escape {c : Call} {m : String} : made (c, .escape m) = none := by
  unfold made; split <;> simp_all

/-- A constructor touches only the handle it returns. -/
theorem new_touches {c : Call} {r : Ret} {k : Kind} (hc : c.makes = some k) (a : ℕ) (h : touches (c, r) a) :
    (made (c, r)).map Prod.fst = some a := by
  rcases h with h | h
  · exact h
  · cases c <;> first | exact h.elim | cases hc

theorem inv_new {c : Call} {t : List Event} {h : Heap} {k : Kind} (hi : Inv t h) (hc : c.makes = some k) {al : Alloc} {o : Cell}
    (ha : AllocOK h al) (ho : ∀ a, al = .at a → CellOK ((c, .ptr a) :: t) a (some o)) {r : Ret} {h' : Heap}
    (he : doNew h o al = ok (r, h')) : Inv ((c, r) :: t) h' := by
  cases al with
  | null =>
    injection he with he; injection he with h1 h2; subst h1 h2
    exact inv_same hi (fun a ht => by have := new_touches hc a ht; rw [made_null] at this; cases this)
  | throws m =>
    injection he with he; injection he with h1 h2; subst h1 h2
    exact inv_same hi (fun a ht => by have := new_touches hc a ht; rw [made_escape] at this; cases this)
  | «at» a =>
    injection he with he; injection he with h1 h2; subst h1 h2
    refine inv_put hi ha.1 (fun b hb ht => ?_) (ho a rfl)
    have := new_touches hc b ht
    rw [made_at hc ha.1] at this
    injection this with this
    exact hb this.symm

theorem alloc_ne {h : Heap} {a : ℕ} {al : Alloc} (ha : AllocOK h al) (e : al = .at a) : a ≠ 0 := by subst e; exact ha.1

theorem kindOf_acts {c : Call} {r : Ret} {t : List Event} (hc : c.makes = none) (a : ℕ) (hd : c.deletes ≠ some a) :
    kindOf ((c, r) :: t) a = kindOf t a := kindOf_frame _ _ _ (made_ne hc a) hd

/-- Other handles are not touched. -/
theorem only {c : Call} {r : Ret} {p : ℕ} (hc : c.makes = none)
    (ht : ∀ a, touches (c, r) a → (made (c, r)).map Prod.fst = some a ∨ p = a) : ∀ a, a ≠ p → ¬touches (c, r) a := by
  intro a ha h
  rcases ht a h with h | h
  · exact made_ne hc a h
  · exact ha h.symm

/-- What `remove_monopole` leaves. -/
theorem rmMono_effect {s s' : Sky} (h : removeMonopole s = ok s') :
    s'.lmax = s.lmax ∧ (Sound s.T s.G s.C → Sound s'.T s'.G s'.C) := by
  refine ⟨?_, fun hs => ?_⟩
  · unfold removeMonopole at h
    by_cases hl : 0 ≤ s.T.lmax
    · rw [if_pos hl] at h
      obtain ⟨_, -, h⟩ := bind_eq_ok.mp h
      injection h with h; subst h; rfl
    · rw [if_neg hl] at h; injection h with h; subst h; rfl
  · obtain ⟨s1, h1, h2, -⟩ := rmMono_ok hs
    rw [h] at h1; injection h1 with h1; subst h1; exact h2

/-- What `remove_dipole` leaves. -/
theorem rmDip_effect {s s' : Sky} (h : removeDipole s = ok s') :
    s'.lmax = s.lmax ∧ (Sound s.T s.G s.C → Sound s'.T s'.G s'.C) := by
  refine ⟨?_, fun hs => ?_⟩
  · unfold removeDipole at h
    by_cases hl : 1 ≤ s.T.lmax
    · rw [if_pos hl] at h
      obtain ⟨T, -, h⟩ := bind_eq_ok.mp h
      by_cases hm : 1 ≤ T.mmax
      · rw [if_pos hm] at h
        obtain ⟨_, -, h⟩ := bind_eq_ok.mp h
        injection h with h; subst h; rfl
      · rw [if_neg hm] at h; injection h with h; subst h; rfl
    · rw [if_neg hl] at h; injection h with h; subst h; rfl
  · obtain ⟨s1, h1, h2, -⟩ := rmDip_ok hs
    rw [h] at h1; injection h1 with h1; subst h1; exact h2

/-- A successful `alloc` leaves the block the client expects. -/
theorem alloc_view {y : Pnt} {w : List (Option ℝ)} (hk : PntOK y w) {n : ℤ}
    (hn : -9223372036854775808 ≤ n ∧ n < 9223372036854775808) {mem : Option (List (Option ℝ))}
    (hm : ∀ l, mem = some l → 0 ≤ n ∧ (l.length : ℤ) = n) {q : ℤ × Pnt} (hq : pntAllocOp y n mem = ok (0, q.2)) :
    PntOK q.2 (if n = w.length then w else if n = 0 then [] else mem.getD []) := by
  obtain ⟨p1, p2, p3⟩ := hk
  unfold pntAllocOp at hq
  have hts : 0 ≤ n → toSize n = n := fun h => by unfold toSize; rw [if_neg (by omega)]
  have htn : n < 0 → 9223372036854775808 ≤ toSize n := fun h => by unfold toSize; rw [if_pos h]; omega
  by_cases he : toSize n = y.size
  · rw [if_pos he] at hq
    injection hq with hq; injection hq with _ hq
    have h0 : 0 ≤ n := by
      by_contra hneg
      have := htn (by omega)
      omega
    rw [hts h0] at he
    rw [if_pos (by omega), ← hq]
    exact ⟨p1, p2, p3⟩
  · rw [if_neg he] at hq
    have hnl : n ≠ w.length := fun h => he (by rw [hts (by omega), h, p1])
    rw [if_neg hnl]
    have hb : y.buf ≠ .freed := by
      rcases p3 with ⟨-, p3⟩ | ⟨-, p3⟩ <;> rw [p3] <;> simp
    have hq' : (if toSize n = 0 then ok (0, ⟨0, .null⟩)
      else match mem with
        | some l => ok (0, ⟨toSize n, .own l⟩)
        | none => ok (-1, ⟨toSize n, match y.buf with | .null => .null | _ => .freed⟩)) = (ok (0, q.2) : Res (ℤ × Pnt)) := by
      rw [← hq]
      cases hbb : y.buf with
      | freed => exact absurd hbb hb
      | null => rfl
      | own l => rfl
    clear hq
    by_cases h0 : toSize n = 0
    · rw [if_pos h0] at hq'
      injection hq' with hq'; injection hq' with _ hq'
      have hz : n = 0 := by
        by_cases hneg : n < 0
        · have := htn hneg; omega
        · rw [hts (by omega)] at h0; exact h0
      rw [if_pos hz, ← hq']
      exact ⟨rfl, by decide, .inl ⟨rfl, rfl⟩⟩
    · rw [if_neg h0] at hq'
      cases mem with
      | none => dsimp only at hq'; injection hq' with hq'; injection hq' with hq' _; exact absurd hq' (by decide)
      | some l =>
        obtain ⟨g1, g2⟩ := hm l rfl
        injection hq' with hq'; injection hq' with _ hq'
        rw [hts g1] at h0 hq'
        rw [if_neg h0, ← hq']
        refine ⟨g2.symm, hn.2, .inr ⟨?_, rfl⟩⟩
        intro hl; change l = [] at hl; rw [hl] at g2; exact h0 (by simpa using g2.symm)

/-- Every defined call keeps the client's view correct. -/
theorem inv_step {t : List Event} {h : Heap} (hi : Inv t h) {c : Call} (hp : Possible h c) {r : Ret} {h' : Heap}
    (he : exec h c = ok (r, h')) : Inv ((c, r) :: t) h' := by
  cases c with
  | newSky al j =>
    refine inv_new hi (k := .sky) rfl hp (fun a ha => ?_) he
    have hm := made_at (c := .newSky al j) (k := .sky) rfl (alloc_ne hp ha)
    refine ⟨kindOf_made hm, ?_, .fresh, ?_, fun _ => fresh_sound j, fun h => by cases h⟩
    · unfold lims; rw [since_made _ _ _ _ _ (by rw [hm]; rfl)]; rfl
    · unfold reads; rw [since_made _ _ _ _ _ (by rw [hm]; rfl)]
  | newBeam al j =>
    refine inv_new hi (k := .beam) rfl hp (fun a ha => ?_) he
    have hm := made_at (c := .newBeam al j) (k := .beam) rfl (alloc_ne hp ha)
    refine ⟨kindOf_made hm, ?_, ?_, .fresh, ?_, fun _ => fresh_sound j, fun h => by cases h⟩
    · unfold isNorm; rw [since_made _ _ _ _ _ (by rw [hm]; rfl)]; rfl
    · unfold lims; rw [since_made _ _ _ _ _ (by rw [hm]; rfl)]; rfl
    · unfold reads; rw [since_made _ _ _ _ _ (by rw [hm]; rfl)]
  | newDet al =>
    refine inv_new hi (k := .det) rfl hp.1 (fun a ha => ?_) he
    have hm := made_at (c := .newDet al) (k := .det) rfl (alloc_ne hp.1 ha)
    refine ⟨kindOf_made hm, ?_, ?_⟩
    · unfold lastEps; rw [since_made _ _ _ _ _ (by rw [hm]; rfl)]; rfl
    · unfold lastId; rw [since_made _ _ _ _ _ (by rw [hm]; rfl)]
  | newDetId al id =>
    refine inv_new hi (k := .det) rfl hp (fun a ha => ?_) he
    have hm := made_at (c := .newDetId al id) (k := .det) rfl (alloc_ne hp ha)
    refine ⟨kindOf_made hm, ?_, ?_⟩
    · unfold lastEps; rw [since_made _ _ _ _ _ (by rw [hm]; rfl)]; rfl
    · unfold lastId; rw [since_made _ _ _ _ _ (by rw [hm]; rfl)]
  | newPnt al =>
    refine inv_new hi (k := .pnt) rfl hp.1 (fun a ha => ?_) he
    have hm := made_at (c := .newPnt al) (k := .pnt) rfl (alloc_ne hp.1 ha)
    refine ⟨kindOf_made hm, fun l hl => ?_⟩
    unfold cells at hl; rw [since_made _ _ _ _ _ (by rw [hm]; rfl)] at hl
    simp at hl; subst hl
    exact ⟨rfl, by decide, .inl ⟨rfl, rfl⟩⟩
  | newConv al s b d pol l m o =>
    unfold exec at he
    dsimp only at he
    by_cases hx : CApi.LMAXMAX < l ∨ CApi.LMAXMAX < m
    · rw [if_pos hx] at he
      exact inv_new hi (k := .conv) rfl (al := .null) (o := .det ⟨[], none⟩) trivial (fun a ha => by cases ha) he
    · rw [if_neg hx] at he
      cases al with
      | null => exact inv_new hi (k := .conv) rfl (al := .null) (o := .det ⟨[], none⟩) trivial (fun a ha => by cases ha) he
      | throws e => exact inv_new hi (k := .conv) rfl (al := .throws e) (o := .det ⟨[], none⟩) trivial (fun a ha => by cases ha) he
      | «at» a =>
        dsimp only at he
        obtain ⟨_, -, he⟩ := bind_eq_ok.mp he
        obtain ⟨_, -, he⟩ := bind_eq_ok.mp he
        cases hc : ctor (worldOf h) s b d pol l m o with
        | throw e =>
          rw [hc] at he
          exact inv_new hi (k := .conv) rfl (al := .throws e) (o := .det ⟨[], none⟩) trivial (fun a ha => by cases ha) he
        | ub w => rw [hc] at he; cases he
        | ok x =>
          rw [hc] at he
          refine inv_new hi (k := .conv) rfl (al := .at a) (o := .conv x) hp (fun a' ha => ?_) he
          injection ha with ha; subst ha
          have hm := made_at (c := .newConv (.at a) s b d pol l m o) (k := .conv) rfl hp.1
          refine ⟨kindOf_made hm, ?_⟩
          obtain ⟨r1, r2, r3⟩ := ctor_refs hc
          unfold held; rw [since_made _ _ _ _ _ (by rw [hm]; rfl), r1, r2, r3]
  | del k p =>
    unfold exec doDel at he
    dsimp only at he
    by_cases h0 : p = 0
    · rw [if_pos h0] at he
      injection he with he; injection he with h1 h2; subst h1 h2 h0
      refine ⟨hi.zero, fun a => ?_⟩
      by_cases ha : a = 0
      · subst ha; rw [hi.zero]
        show kindOf _ _ = none
        conv => lhs; unfold kindOf
        rw [made_none rfl]
        exact if_pos rfl
      · exact cell_frame (only (c := .del k 0) (r := .status 0) (p := 0) rfl (fun b hb => hb) a ha) (hi.cell a)
    · rw [if_neg h0] at he
      have key : h' = Function.update h p none ∧ r = .status 0 := by
        cases hc : h p with
        | none => rw [hc] at he; cases he
        | some c =>
          rw [hc] at he
          dsimp only at he
          by_cases hk : c.kind = k
          · rw [if_pos hk] at he
            split at he
            · cases he
            · injection he with he; injection he with h1 h2; exact ⟨h2.symm, h1.symm⟩
          · rw [if_neg hk] at he; cases he
      obtain ⟨h1, h2⟩ := key
      subst h1 h2
      refine ⟨by rw [Function.update_of_ne (Ne.symm h0)]; exact hi.zero, fun a => ?_⟩
      by_cases ha : a = p
      · subst ha; rw [Function.update_self]
        show kindOf _ _ = none
        conv => lhs; unfold kindOf
        rw [made_none rfl]
        exact if_pos rfl
      · rw [Function.update_of_ne ha]
        exact cell_frame (only (c := .del k p) (r := .status 0) (p := p) rfl (fun b hb => hb) a ha) (hi.cell a)
  | readSky p x st =>
    obtain ⟨y, hy, he⟩ := bind_eq_ok.mp he
    injection he with he; injection he with h1 h2; subst h1 h2
    have hy := skyAt_ok hy
    have := hi.cell p
    rw [hy] at this
    obtain ⟨k1, kl, r0, k2, -⟩ := this
    refine inv_put hi (ne_zero hi hy) (only rfl (fun b hb => hb)) ⟨?_, ?_, if stat st = 0 then .good else .bad, ?_, ?_, ?_⟩
    · rw [kindOf_acts rfl p (by simp [Call.deletes])]; exact k1
    · unfold lims at kl ⊢
      rw [since_acts _ _ _ _ _ (made_ne rfl p), kl]
      simp [limStep]
    · unfold reads at k2 ⊢
      rw [since_acts _ _ _ _ _ (made_ne rfl p), k2]
      simp
    · intro hg
      have : st = none := by cases st with | none => rfl | some m => exact absurd rfl hg
      exact (hp this).1
    · intro hg
      have : st = none := by cases st with | none => rfl | some m => cases hg
      exact (hp this).2
  | readBeam p x st =>
    obtain ⟨y, hy, he⟩ := bind_eq_ok.mp he
    injection he with he; injection he with h1 h2; subst h1 h2
    have hy := beamAt_ok hy
    have := hi.cell p
    rw [hy] at this
    obtain ⟨k1, kn, kl, r0, k2, -⟩ := this
    refine inv_put hi (ne_zero hi hy) (only rfl (fun b hb => hb)) ⟨?_, ?_, ?_, if stat st = 0 then .good else .bad, ?_, ?_, ?_⟩
    · rw [kindOf_acts rfl p (by simp [Call.deletes])]; exact k1
    · unfold isNorm at kn ⊢
      rw [since_frame _ _ _ _ _ (made_ne rfl p) (fun v => rfl), ← kn]
      exact hp.2 y hy
    · unfold lims at kl ⊢
      rw [since_acts _ _ _ _ _ (made_ne rfl p), kl]
      simp [limStep]
    · unfold reads at k2 ⊢
      rw [since_acts _ _ _ _ _ (made_ne rfl p), k2]
      simp
    · intro hg
      have : st = none := by cases st with | none => rfl | some m => exact absurd rfl hg
      exact (hp.1 this).1
    · intro hg
      have : st = none := by cases st with | none => rfl | some m => cases hg
      exact (hp.1 this).2
  | skyLmax p =>
    obtain ⟨y, hy, he⟩ := bind_eq_ok.mp he
    obtain ⟨l, -, he⟩ := bind_eq_ok.mp he
    injection he with he; injection he with h1 h2; subst h1 h2
    exact inv_same hi (fun a ht => ht.elim (made_ne rfl a) id)
  | beamLmax p =>
    obtain ⟨y, hy, he⟩ := bind_eq_ok.mp he
    obtain ⟨l, -, he⟩ := bind_eq_ok.mp he
    injection he with he; injection he with h1 h2; subst h1 h2
    exact inv_same hi (fun a ht => ht.elim (made_ne rfl a) id)
  | beamMmax p =>
    obtain ⟨y, hy, he⟩ := bind_eq_ok.mp he
    obtain ⟨l, -, he⟩ := bind_eq_ok.mp he
    injection he with he; injection he with h1 h2; subst h1 h2
    exact inv_same hi (fun a ht => ht.elim (made_ne rfl a) id)
  | normalize p =>
    obtain ⟨y, hy, he⟩ := bind_eq_ok.mp he
    have hy := beamAt_ok hy
    have hc := hi.cell p
    rw [hy] at hc
    obtain ⟨k1, kn, kl, r0, k2, k3, k4⟩ := hc
    cases hn : Obj.normalize y with
    | throw e =>
      exfalso
      unfold Obj.normalize at hn
      by_cases hq : y.normalized = true
      · rw [if_pos hq] at hn; cases hn
      · rw [if_neg hq] at hn
        by_cases hl : 0 ≤ y.T.lmax
        · rw [if_pos hl] at hn
          unfold Alm.get rd at hn
          split at hn
          · rw [ok_bind] at hn; dsimp only at hn; cases hpp : y.pol <;> rw [hpp] at hn <;> cases hn
          · cases hn
        · rw [if_neg hl] at hn; cases hn
    | ub w => rw [hn] at he; cases he
    | ok v =>
      rw [hn] at he
      injection he with he; injection he with h1 h2; subst h1 h2
      obtain ⟨e1, e2, e3, e4, e5⟩ := normalize_effect (s := v.1) (b' := v.2) hn
      refine inv_put hi (ne_zero hi hy) (only rfl (fun b hb => hb)) ⟨?_, ?_, ?_, r0, ?_, ?_, ?_⟩
      · rw [kindOf_acts rfl p (by simp [Call.deletes])]; exact k1
      · rw [e1]
        unfold isNorm reads at *
        rw [since_acts _ _ _ _ _ (made_ne rfl p)]
        obtain ⟨w, hw⟩ := since_transfer (fun _ => false) normStep k2
        rw [hw]; simp [normStep]
      · unfold lims at kl ⊢
        rw [since_frame _ _ _ _ _ (made_ne rfl p) (fun v => rfl), e2, e3]; exact kl
      · unfold reads at k2 ⊢
        rw [since_frame _ _ _ _ _ (made_ne rfl p) (fun v => rfl)]; exact k2
      · exact fun hr => e5 (k3 hr)
      · intro hr; rw [e2, e3, e4]; exact k4 hr
  | normalized p =>
    obtain ⟨y, hy, he⟩ := bind_eq_ok.mp he
    injection he with he; injection he with h1 h2; subst h1 h2
    exact inv_same hi (fun a ht => ht.elim (made_ne rfl a) id)
  | rmMono p =>
    obtain ⟨y, hy, he⟩ := bind_eq_ok.mp he
    have hy := skyAt_ok hy
    have hc := hi.cell p
    rw [hy] at hc
    obtain ⟨k1, kl, r0, k2, k3, k4⟩ := hc
    have hx : ∀ x : Sky, x.lmax = y.lmax → (r0 ≠ .bad → Sound x.T x.G x.C) → (r0 = .good → x.lmax.isSome) →
        Inv ((.rmMono p, r) :: t) (put h p (.sky x)) := fun x x0 x1 x2 => by
      refine inv_put hi (ne_zero hi hy) (only rfl (fun b hb => hb)) ⟨?_, ?_, r0, ?_, x1, x2⟩
      · rw [kindOf_acts rfl p (by simp [Call.deletes])]; exact k1
      · unfold lims at kl ⊢
        rw [since_frame _ _ _ _ _ (made_ne rfl p) (fun v => rfl), x0]; exact kl
      · unfold reads at k2 ⊢
        rw [since_frame _ _ _ _ _ (made_ne rfl p) (fun v => rfl)]; exact k2
    cases hn : removeMonopole y with
    | throw e =>
      rw [hn] at he
      injection he with he; injection he with h1 h2; subst h2
      refine ⟨hi.zero, fun a => ?_⟩
      by_cases ha : a = p
      · have := (hx y rfl k3 k4).cell a
        unfold put at this; rw [ha, Function.update_self] at this; rw [ha, hy]; exact this
      · exact cell_frame (only (c := .rmMono p) (r := r) (p := p) rfl (fun b hb => hb) a ha) (hi.cell a)
    | ub w => rw [hn] at he; cases he
    | ok v =>
      rw [hn] at he
      injection he with he; injection he with h1 h2; subst h2
      obtain ⟨e1, e2⟩ := rmMono_effect hn
      exact hx v e1 (fun hr => e2 (k3 hr)) (fun hr => by rw [e1]; exact k4 hr)
  | rmDip p =>
    obtain ⟨y, hy, he⟩ := bind_eq_ok.mp he
    have hy := skyAt_ok hy
    have hc := hi.cell p
    rw [hy] at hc
    obtain ⟨k1, kl, r0, k2, k3, k4⟩ := hc
    have hx : ∀ x : Sky, x.lmax = y.lmax → (r0 ≠ .bad → Sound x.T x.G x.C) → (r0 = .good → x.lmax.isSome) →
        Inv ((.rmDip p, r) :: t) (put h p (.sky x)) := fun x x0 x1 x2 => by
      refine inv_put hi (ne_zero hi hy) (only rfl (fun b hb => hb)) ⟨?_, ?_, r0, ?_, x1, x2⟩
      · rw [kindOf_acts rfl p (by simp [Call.deletes])]; exact k1
      · unfold lims at kl ⊢
        rw [since_frame _ _ _ _ _ (made_ne rfl p) (fun v => rfl), x0]; exact kl
      · unfold reads at k2 ⊢
        rw [since_frame _ _ _ _ _ (made_ne rfl p) (fun v => rfl)]; exact k2
    cases hn : removeDipole y with
    | throw e =>
      rw [hn] at he
      injection he with he; injection he with h1 h2; subst h2
      refine ⟨hi.zero, fun a => ?_⟩
      by_cases ha : a = p
      · have := (hx y rfl k3 k4).cell a
        unfold put at this; rw [ha, Function.update_self] at this; rw [ha, hy]; exact this
      · exact cell_frame (only (c := .rmDip p) (r := r) (p := p) rfl (fun b hb => hb) a ha) (hi.cell a)
    | ub w => rw [hn] at he; cases he
    | ok v =>
      rw [hn] at he
      injection he with he; injection he with h1 h2; subst h2
      obtain ⟨e1, e2⟩ := rmDip_effect hn
      exact hx v e1 (fun hr => e2 (k3 hr)) (fun hr => by rw [e1]; exact k4 hr)
  | dataSky p part =>
    obtain ⟨y, hy, he⟩ := bind_eq_ok.mp he
    generalize hQ : (if part = 0 then y.T else if part = 1 then y.G else y.C).alm = q at he
    by_cases hq : q = []
    · rw [if_pos hq] at he; cases he
    · rw [if_neg hq] at he
      injection he with he; injection he with h1 h2; subst h1 h2
      exact inv_same hi (fun a ht => ht.elim (made_ne rfl a) id)
  | dataBeam p part =>
    obtain ⟨y, hy, he⟩ := bind_eq_ok.mp he
    generalize hQ : (if part = 0 then y.T else if part = 1 then y.G else y.C).alm = q at he
    by_cases hq : q = []
    · rw [if_pos hq] at he; cases he
    · rw [if_neg hq] at he
      injection he with he; injection he with h1 h2; subst h1 h2
      exact inv_same hi (fun a ht => ht.elim (made_ne rfl a) id)
  | setEps p v =>
    obtain ⟨y, hy, he⟩ := bind_eq_ok.mp he
    injection he with he; injection he with h1 h2; subst h1 h2
    have hy := detAt_ok hy
    have hc := hi.cell p
    rw [hy] at hc
    obtain ⟨k1, k2, k3⟩ := hc
    refine inv_put hi (ne_zero hi hy) (only rfl (fun b hb => hb)) ⟨?_, ?_, ?_⟩
    · rw [kindOf_acts rfl p (by simp [Call.deletes])]; exact k1
    · unfold lastEps lastId at *
      rw [since_acts _ _ _ _ _ (made_ne rfl p)]
      obtain ⟨w, hw⟩ := since_transfer (fun _ => none) epsStep k3.symm
      rw [hw]; simp [epsStep]
    · unfold lastId at k3 ⊢
      rw [since_frame _ _ _ _ _ (made_ne rfl p) (fun v => rfl)]; exact k3
  | getEps p =>
    obtain ⟨y, hy, he⟩ := bind_eq_ok.mp he
    obtain ⟨l, -, he⟩ := bind_eq_ok.mp he
    injection he with he; injection he with h1 h2; subst h1 h2
    exact inv_same hi (fun a ht => ht.elim (made_ne rfl a) id)
  | setId p v =>
    obtain ⟨y, hy, he⟩ := bind_eq_ok.mp he
    injection he with he; injection he with h1 h2; subst h1 h2
    have hy := detAt_ok hy
    have hc := hi.cell p
    rw [hy] at hc
    obtain ⟨k1, k2, k3⟩ := hc
    refine inv_put hi (ne_zero hi hy) (only rfl (fun b hb => hb)) ⟨?_, ?_, ?_⟩
    · rw [kindOf_acts rfl p (by simp [Call.deletes])]; exact k1
    · unfold lastEps at k2 ⊢
      rw [since_frame _ _ _ _ _ (made_ne rfl p) (fun v => rfl)]; exact k2
    · unfold lastId at k3 ⊢
      rw [since_acts _ _ _ _ _ (made_ne rfl p), ← k3]; simp
  | getId p size =>
    obtain ⟨y, hy, he⟩ := bind_eq_ok.mp he
    by_cases hq : y.id.length + 1 ≤ size
    · rw [if_pos hq] at he
      injection he with he; injection he with h1 h2; subst h1 h2
      exact inv_same hi (fun a ht => ht.elim (made_ne rfl a) id)
    · rw [if_neg hq] at he; cases he
  | pntData p =>
    obtain ⟨y, hy, he⟩ := bind_eq_ok.mp he
    have : h' = h := by
      cases hb : y.buf <;> rw [hb] at he <;> (injection he with he; injection he with h1 h2; exact h2.symm)
    subst this
    exact inv_same hi (fun a ht => ht.elim (made_ne rfl a) id)
  | pntRead p i =>
    obtain ⟨y, hy, he⟩ := bind_eq_ok.mp he
    have : h' = h := by
      cases hb : y.buf with
      | null => rw [hb] at he; cases he
      | freed => rw [hb] at he; cases he
      | own l =>
        rw [hb] at he
        dsimp only at he
        cases hl : l[i]? with
        | none => rw [hl] at he; cases he
        | some v => rw [hl] at he; injection he with he; injection he with h1 h2; exact h2.symm
    subst this
    exact inv_same hi (fun a ht => ht.elim (made_ne rfl a) id)
  | pntWrite p i v =>
    obtain ⟨y, hy, he⟩ := bind_eq_ok.mp he
    have hy := pntAt_ok hy
    have hc := hi.cell p
    rw [hy] at hc
    obtain ⟨k1, k2⟩ := hc
    cases hb : y.buf with
    | null => rw [hb] at he; cases he
    | freed => rw [hb] at he; cases he
    | own l =>
      rw [hb] at he
      dsimp only at he
      by_cases hl : i < l.length
      · rw [if_pos hl] at he
        injection he with he; injection he with h1 h2; subst h1 h2
        refine inv_put hi (ne_zero hi hy) (only rfl (fun b hb => hb)) ⟨?_, ?_⟩
        · rw [kindOf_acts rfl p (by simp [Call.deletes])]; exact k1
        · intro l' hl'
          unfold cells at hl' k2
          rw [since_acts _ _ _ _ _ (made_ne rfl p)] at hl'
          rw [Option.join_eq_some_iff] at hl'
          obtain ⟨u, hu, hu'⟩ := Option.map_eq_some_iff.mp hl'
          simp only [if_true] at hu'
          obtain ⟨w, hw, hw'⟩ := Option.map_eq_some_iff.mp hu'
          subst hw
          obtain ⟨p1, p2, p3⟩ := k2 w (by rw [hu]; rfl)
          have : w = l := by
            rcases p3 with ⟨-, p3⟩ | ⟨-, p3⟩
            · rw [hb] at p3; cases p3
            · rw [hb] at p3; injection p3 with p3; exact p3.symm
          subst this hw'
          refine ⟨by simpa using p1, p2, .inr ⟨?_, rfl⟩⟩
          intro h0
          have := congrArg List.length h0
          simp at this
          rw [this] at hl; exact absurd hl (by simp)
      · rw [if_neg hl] at he; cases he
  | pntAlloc p n mem =>
    obtain ⟨y, hy, he⟩ := bind_eq_ok.mp he
    have hy := pntAt_ok hy
    have hc := hi.cell p
    rw [hy] at hc
    obtain ⟨k1, k2⟩ := hc
    obtain ⟨q, hq, he⟩ := bind_eq_ok.mp he
    injection he with he; injection he with h1 h2; subst h1 h2
    refine inv_put hi (ne_zero hi hy) (only rfl (fun b hb => hb)) ⟨?_, ?_⟩
    · rw [kindOf_acts rfl p (by simp [Call.deletes])]; exact k1
    · intro l' hl'
      unfold cells at hl' k2
      rw [since_acts _ _ _ _ _ (made_ne rfl p)] at hl'
      rw [Option.join_eq_some_iff] at hl'
      obtain ⟨u, hu, hu'⟩ := Option.map_eq_some_iff.mp hl'
      simp only [if_true] at hu'
      by_cases h0 : q.1 = 0
      · rw [if_pos h0] at hu'
        obtain ⟨w, hw, hw'⟩ := Option.map_eq_some_iff.mp hu'
        subst hw
        have hk := k2 w (by rw [hu]; rfl)
        rw [← hw']
        exact alloc_view hk hp.1 hp.2 (by rw [← h0]; exact hq)
      · rw [if_neg h0] at hu'; cases hu'
  | setSky p v =>
    obtain ⟨y, hy, he⟩ := bind_eq_ok.mp he
    injection he with he; injection he with h1 h2; subst h1 h2
    have hy := convAt_ok hy
    have hc := hi.cell p
    rw [hy] at hc
    obtain ⟨k1, k2⟩ := hc
    refine inv_put hi (ne_zero hi hy) (only rfl (fun b hb => hb)) ⟨?_, ?_⟩
    · rw [kindOf_acts rfl p (by simp [Call.deletes])]; exact k1
    · unfold held at k2 ⊢
      rw [since_acts _ _ _ _ _ (made_ne rfl p), k2]; simp
  | setBeam p v =>
    obtain ⟨y, hy, he⟩ := bind_eq_ok.mp he
    injection he with he; injection he with h1 h2; subst h1 h2
    have hy := convAt_ok hy
    have hc := hi.cell p
    rw [hy] at hc
    obtain ⟨k1, k2⟩ := hc
    refine inv_put hi (ne_zero hi hy) (only rfl (fun b hb => hb)) ⟨?_, ?_⟩
    · rw [kindOf_acts rfl p (by simp [Call.deletes])]; exact k1
    · unfold held at k2 ⊢
      rw [since_acts _ _ _ _ _ (made_ne rfl p), k2]; simp
  | setDet p v =>
    obtain ⟨y, hy, he⟩ := bind_eq_ok.mp he
    injection he with he; injection he with h1 h2; subst h1 h2
    have hy := convAt_ok hy
    have hc := hi.cell p
    rw [hy] at hc
    obtain ⟨k1, k2⟩ := hc
    refine inv_put hi (ne_zero hi hy) (only rfl (fun b hb => hb)) ⟨?_, ?_⟩
    · rw [kindOf_acts rfl p (by simp [Call.deletes])]; exact k1
    · unfold held at k2 ⊢
      rw [since_acts _ _ _ _ _ (made_ne rfl p), k2]; simp
  | convolve c p cal kern wgt data st =>
    obtain ⟨x, hx, he⟩ := bind_eq_ok.mp he
    obtain ⟨y, hy, he⟩ := bind_eq_ok.mp he
    obtain ⟨_, -, he⟩ := bind_eq_ok.mp he
    obtain ⟨_, -, he⟩ := bind_eq_ok.mp he
    obtain ⟨_, -, he⟩ := bind_eq_ok.mp he
    injection he with he; injection he with h1 h2
    have hx := convAt_ok hx
    have hy := pntAt_ok hy
    have hcp : c ≠ p := by rintro rfl; rw [hx] at hy; cases hy
    have hc := hi.cell c
    rw [hx] at hc
    have hd := hi.cell p
    rw [hy] at hd
    obtain ⟨k1, k2⟩ := hc
    obtain ⟨d1, d2⟩ := hd
    clear h1
    subst h2
    refine ⟨?_, fun a => ?_⟩
    · unfold put
      rw [Function.update_of_ne (ne_zero hi hy).symm, Function.update_of_ne (ne_zero hi hx).symm]; exact hi.zero
    · unfold put
      by_cases ha : a = p
      · subst ha
        rw [Function.update_self]
        refine ⟨?_, fun l' hl' => ?_⟩
        · rw [kindOf_acts rfl a (by simp [Call.deletes])]; exact d1
        · unfold cells at hl' d2
          rw [since_acts _ _ _ _ _ (made_ne rfl a)] at hl'
          rw [Option.join_eq_some_iff] at hl'
          obtain ⟨u, hu, hu'⟩ := Option.map_eq_some_iff.mp hl'
          simp only [if_true] at hu'
          obtain ⟨w, hw, hw'⟩ := Option.map_eq_some_iff.mp hu'
          subst hw
          obtain ⟨p1, p2, p3⟩ := d2 w (by rw [hu]; rfl)
          rcases p3 with ⟨q1, q2⟩ | ⟨q1, q2⟩
          · rw [if_pos q1] at hw'
            subst hw'
            rw [q2]
            exact ⟨by rw [p1, q1], p2, .inl ⟨rfl, q2⟩⟩
          · rw [if_neg q1] at hw'
            subst hw'
            rw [q2]
            have hlen := hp y w hy q2
            refine ⟨by dsimp only; rw [p1, hlen], p2, .inr ⟨?_, rfl⟩⟩
            intro h0; rw [h0] at hlen
            exact q1 (List.length_eq_zero_iff.mp hlen.symm)
      · rw [Function.update_of_ne ha]
        by_cases hac : a = c
        · subst hac
          rw [Function.update_self]
          refine ⟨?_, ?_⟩
          · rw [kindOf_acts rfl a (by simp [Call.deletes])]; exact k1
          · unfold held at k2 ⊢
            rw [since_frame _ _ _ _ _ (made_ne rfl a) (fun v => rfl)]; exact k2
        · rw [Function.update_of_ne hac]
          refine cell_frame ?_ (hi.cell a)
          rintro (ht | ht | ht)
          · exact made_ne rfl a ht
          · exact hac ht.symm
          · exact ha ht.symm
end Verif.Handle
