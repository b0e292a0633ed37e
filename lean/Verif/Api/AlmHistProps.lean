import Verif.Api.AlmHistProof

/-!
# C79: histories on sets of coefficients
-/

namespace Verif.AlmHist
open Verif Res Harm

variable {V K : Type}

theorem step_ok (A : Arith V K) {s s' : SEnv V} {e : Env V} (h : Rel s e) {op : Op V K} {x : Option String}
    (hs : specStep A s op = some (s', x)) : ∃ e', step A e op = ok (e', x) ∧ Rel s' e' := by
  cases op with
  | create i l m =>
    simp only [specStep] at hs
    split at hs
    · rename_i L M hi hw
      obtain ⟨rfl, rfl, hM⟩ := want_proper hw
      simp only [Option.some.injEq, Prod.mk.injEq] at hs
      obtain ⟨rfl, rfl⟩ := hs
      have hc : create (V := V) (L : ℤ) (M : ℤ)
          = (some ⟨⟨(L : ℤ), (M : ℤ), List.replicate (before L (M + 1)) none⟩, none⟩, none) := by
        unfold create; rw [numAlms_before hM]; dsimp only; rw [if_neg (by omega), Int.toNat_natCast]
      refine ⟨_, ?_, h.upd i (o := (create (V := V) (L : ℤ) (M : ℤ)).1) ?_⟩
      · simp only [step, h.none hi]
        rw [hc]
      · rw [hc]; exact rep_fresh hM _ (by simp)
    · rename_i hi hw
      simp only [Option.some.injEq, Prod.mk.injEq] at hs
      obtain ⟨rfl, rfl⟩ := hs
      have hc : create (V := V) l m = (none, some msgLimits) := by
        unfold create; rw [numAlms_refused (want_refused hw)]; rfl
      refine ⟨_, ?_, h⟩
      simp only [step, h.none hi]
      rw [hc]
      unfold upd
      rw [self_upd e i (h.none hi)]
    · simp at hs
  | destroy i =>
    simp only [specStep] at hs
    split at hs
    · rename_i k hi
      simp only [Option.some.injEq, Prod.mk.injEq] at hs
      obtain ⟨rfl, rfl⟩ := hs
      obtain ⟨o, ho, hr, hobj⟩ := h.get hi
      refine ⟨_, ?_, h.upd i (o := none) trivial⟩
      simp only [step]
      rw [hobj, ok_bind]
      unfold destroy
      rw [hr.notlost]; rfl
    · simp at hs
  | set i l m =>
    simp only [specStep] at hs
    split at hs
    · rename_i k L M hi hw
      obtain ⟨rfl, rfl, hM⟩ := want_proper hw
      simp only [Option.some.injEq, Prod.mk.injEq] at hs
      obtain ⟨rfl, rfl⟩ := hs
      obtain ⟨o, ho, hr, hobj⟩ := h.get hi
      refine ⟨_, ?_, h.upd i (o := some ⟨⟨(L : ℤ), (M : ℤ), alloc o.base.alm (before L (M + 1))⟩, none⟩)
        (rep_fresh hM _ (alloc_length _ _))⟩
      simp only [step]
      rw [hobj, ok_bind]
      unfold set
      rw [numAlms_before hM, hr.notlost]
      dsimp only
      rw [if_neg (by omega), Int.toNat_natCast]; rfl
    · rename_i k hi hw
      simp only [Option.some.injEq, Prod.mk.injEq] at hs
      obtain ⟨rfl, rfl⟩ := hs
      obtain ⟨o, ho, hr, hobj⟩ := h.get hi
      refine ⟨_, ?_, h.upd i (o := some { o with base := { o.base with lmax := l, mmax := m } })
        ⟨hr.notlost, rfl, rfl, want_refused hw⟩⟩
      simp only [step]
      rw [hobj, ok_bind]
      unfold set
      rw [numAlms_refused (want_refused hw)]; rfl
    · simp at hs
  | setArr i data l m =>
    simp only [specStep] at hs
    split at hs
    · rename_i k L M hi hw
      obtain ⟨rfl, rfl, hM⟩ := want_proper hw
      obtain ⟨o, ho, hr, hobj⟩ := h.get hi
      by_cases hd : data.length = before L (M + 1)
      · rw [if_pos hd] at hs
        simp only [Option.some.injEq, Prod.mk.injEq] at hs
        obtain ⟨rfl, rfl⟩ := hs
        refine ⟨_, ?_, h.upd i (o := some ⟨⟨(L : ℤ), (M : ℤ), data.map some⟩, none⟩) (rep_arr hM data hd)⟩
        simp only [step]
        rw [hobj, ok_bind]
        unfold setArr destroy
        rw [numAlms_before hM, hr.notlost]
        dsimp only
        rw [if_pos (by rw [hd])]; rfl
      · rw [if_neg hd] at hs
        simp only [Option.some.injEq, Prod.mk.injEq] at hs
        obtain ⟨rfl, rfl⟩ := hs
        refine ⟨e, ?_, h⟩
        simp only [step]
        rw [hobj, ok_bind]
        unfold setArr
        rw [numAlms_before hM]
        dsimp only
        rw [if_neg (by omega), ok_bind]
        unfold upd
        rw [self_upd e i ho]; rfl
    · rename_i k hi hw
      simp only [Option.some.injEq, Prod.mk.injEq] at hs
      obtain ⟨rfl, rfl⟩ := hs
      obtain ⟨o, ho, hr, hobj⟩ := h.get hi
      refine ⟨e, ?_, h⟩
      simp only [step]
      rw [hobj, ok_bind]
      unfold setArr
      rw [numAlms_refused (want_refused hw)]
      dsimp only
      rw [ok_bind]
      unfold upd
      rw [self_upd e i ho]; rfl
    · simp at hs
  | toZero i =>
    simp only [specStep] at hs
    split at hs
    · rename_i L M c hi
      simp only [Option.some.injEq, Prod.mk.injEq] at hs
      obtain ⟨rfl, rfl⟩ := hs
      obtain ⟨o, ho, hr, hobj⟩ := h.get hi
      refine ⟨_, ?_, h.upd i (o := some ⟨toZero A o.base, none⟩) ?_⟩
      · simp only [step]
        rw [hobj, ok_bind, hr.live]; rfl
      · exact rep_map hr (fun _ => some A.zero) (fun l m v hv => Or.inl (fun _ => hv))
    · simp at hs
  | scale i f =>
    simp only [specStep] at hs
    split at hs
    · rename_i L M c hi
      simp only [Option.some.injEq, Prod.mk.injEq] at hs
      obtain ⟨rfl, rfl⟩ := hs
      obtain ⟨o, ho, hr, hobj⟩ := h.get hi
      refine ⟨_, ?_, h.upd i (o := some ⟨scale A o.base f, none⟩) ?_⟩
      · simp only [step]
        rw [hobj, ok_bind, hr.live]; rfl
      · refine rep_map hr (fun x => x.map (fun v => A.mul v f)) (fun l m v hv => Or.inr ?_)
        cases hc : c l m with
        | none => rw [hc] at hv; simp at hv
        | some u => rw [hc] at hv; exact ⟨u, rfl, hv⟩
    · simp at hs
  | scaleL i fs =>
    simp only [specStep] at hs
    split at hs
    · rename_i L M c hi
      obtain ⟨o, ho, hr, hobj⟩ := h.get hi
      by_cases hd : L < fs.length
      · rw [if_pos hd] at hs
        simp only [Option.some.injEq, Prod.mk.injEq] at hs
        obtain ⟨rfl, rfl⟩ := hs
        obtain ⟨b, hb, hrb⟩ := rep_scale (A := A) hr (fun l _ => rd fs l)
          (fun l _ => if hl : l < fs.length then fs[l] else fs[0]) (fun l _ => fs[l]?)
          (fun l m _ _ hl => by
            have hl' : l < fs.length := by omega
            simp only [dif_pos hl']
            exact ⟨rd_nat hl', List.getElem?_eq_getElem hl'⟩)
        refine ⟨_, ?_, h.upd i (o := some ⟨b, none⟩) hrb⟩
        simp only [step]
        rw [hobj, ok_bind, hr.live, ok_bind]
        unfold scaleL
        rw [if_pos ⟨by rw [hr.2.2.1]; omega, by rw [hr.2.2.1]; omega⟩, hb]; rfl
      · rw [if_neg hd] at hs
        simp only [Option.some.injEq, Prod.mk.injEq] at hs
        obtain ⟨rfl, rfl⟩ := hs
        refine ⟨e, ?_, h⟩
        simp only [step]
        rw [hobj, ok_bind, hr.live, ok_bind]
        unfold scaleL
        rw [if_neg (by rw [hr.2.2.1]; omega), ok_bind]
        dsimp only
        unfold upd
        rw [hr.eta, self_upd e i ho]; rfl
    · simp at hs
  | scaleM i fs =>
    simp only [specStep] at hs
    split at hs
    · rename_i L M c hi
      obtain ⟨o, ho, hr, hobj⟩ := h.get hi
      by_cases hd : M < fs.length
      · rw [if_pos hd] at hs
        simp only [Option.some.injEq, Prod.mk.injEq] at hs
        obtain ⟨rfl, rfl⟩ := hs
        obtain ⟨b, hb, hrb⟩ := rep_scale (A := A) hr (fun _ m => rd fs m)
          (fun _ m => if hl : m < fs.length then fs[m] else fs[0]) (fun _ m => fs[m]?)
          (fun l m hm _ _ => by
            have hl' : m < fs.length := by omega
            simp only [dif_pos hl']
            exact ⟨rd_nat hl', List.getElem?_eq_getElem hl'⟩)
        refine ⟨_, ?_, h.upd i (o := some ⟨b, none⟩) hrb⟩
        simp only [step]
        rw [hobj, ok_bind, hr.live, ok_bind]
        unfold scaleM
        rw [if_pos ⟨by rw [hr.2.2.2.1]; omega, by rw [hr.2.2.2.1]; omega⟩, hb]; rfl
      · rw [if_neg hd] at hs
        simp only [Option.some.injEq, Prod.mk.injEq] at hs
        obtain ⟨rfl, rfl⟩ := hs
        refine ⟨e, ?_, h⟩
        simp only [step]
        rw [hobj, ok_bind, hr.live, ok_bind]
        unfold scaleM
        rw [if_neg (by rw [hr.2.2.2.1]; omega), ok_bind]
        dsimp only
        unfold upd
        rw [hr.eta, self_upd e i ho]; rfl
    · simp at hs
  | addNum i x =>
    simp only [specStep] at hs
    split at hs
    · rename_i L M c hi
      simp only [Option.some.injEq, Prod.mk.injEq] at hs
      obtain ⟨rfl, rfl⟩ := hs
      obtain ⟨o, ho, hr, hobj⟩ := h.get hi
      obtain ⟨b, hb, hrb⟩ := rep_addNum (A := A) hr x
      refine ⟨_, ?_, h.upd i (o := some ⟨b, none⟩) hrb⟩
      simp only [step]
      rw [hobj, ok_bind, hr.live, ok_bind, hb]; rfl
    · simp at hs
  | put i l m v =>
    simp only [specStep] at hs
    split at hs
    · rename_i L M c hi
      by_cases hlm : 0 ≤ m ∧ m ≤ M ∧ m ≤ l ∧ l ≤ L
      · rw [if_pos hlm] at hs
        simp only [Option.some.injEq, Prod.mk.injEq] at hs
        obtain ⟨rfl, rfl⟩ := hs
        obtain ⟨o, ho, hr, hobj⟩ := h.get hi
        obtain ⟨b, hb, hrb⟩ := rep_put hr v hlm
        refine ⟨_, ?_, h.upd i (o := some ⟨b, none⟩) hrb⟩
        simp only [step]
        rw [hobj, ok_bind, hr.live, ok_bind, hb]; rfl
      · rw [if_neg hlm] at hs; simp at hs
    · simp at hs
  | add i j =>
    have refuse : ∀ {k q : Know V}, s i = some k → s j = some q →
        ¬ (k.limits.1 = q.limits.1 ∧ k.limits.2 = q.limits.2) → ∃ e', step A e (.add i j) = ok (e', some msgAdd) ∧ Rel s e' := by
      intro k q hi hj hne
      obtain ⟨o, ho, hr, hobj⟩ := h.get hi
      obtain ⟨p, hp, hrp, hpobj⟩ := h.get hj
      refine ⟨e, ?_, h⟩
      simp only [step]
      rw [hobj, ok_bind, hpobj, ok_bind, hr.live, ok_bind, hrp.live, ok_bind]
      unfold add
      rw [if_neg (by have a := hr.limits; have b := hrp.limits; rw [← a, ← b] at hne; exact hne), ok_bind]
      dsimp only
      unfold upd
      rw [hr.eta, self_upd e i ho]; rfl
    simp only [specStep] at hs
    split at hs
    · rename_i L M c L' M' d hi hj
      by_cases hlm : L = L' ∧ M = M'
      · obtain ⟨rfl, rfl⟩ := hlm
        rw [if_pos ⟨rfl, rfl⟩] at hs
        simp only [Option.some.injEq, Prod.mk.injEq] at hs
        obtain ⟨rfl, rfl⟩ := hs
        obtain ⟨o, ho, hr, hobj⟩ := h.get hi
        obtain ⟨p, hp, hrp, hpobj⟩ := h.get hj
        obtain ⟨b, hb, hrb⟩ := rep_add (A := A) hr hrp (i == j) (fun hij => by
          have : i = j := by simpa using hij
          subst this
          rw [ho] at hp; injection hp)
        refine ⟨_, ?_, h.upd i (o := some ⟨b, none⟩) hrb⟩
        simp only [step]
        rw [hobj, ok_bind, hpobj, ok_bind, hr.live, ok_bind, hrp.live, ok_bind, hb]; rfl
      · rw [if_neg hlm] at hs
        simp only [Option.some.injEq, Prod.mk.injEq] at hs
        obtain ⟨rfl, rfl⟩ := hs
        exact refuse hi hj (by simp only [Know.limits]; omega)
    · rename_i L M c l m hi hj
      simp only [Option.some.injEq, Prod.mk.injEq] at hs
      obtain ⟨rfl, rfl⟩ := hs
      refine refuse hi hj ?_
      obtain ⟨o, ho, hr, hobj⟩ := h.get hi
      obtain ⟨p, hp, hrp, hpobj⟩ := h.get hj
      have h1 := hrp.2.2.2
      have h2 := hr.2.1.2.1
      rw [hr.2.2.1, hr.2.2.2.1] at h2
      simp only [Know.limits]; omega
    · rename_i l m L M c hi hj
      simp only [Option.some.injEq, Prod.mk.injEq] at hs
      obtain ⟨rfl, rfl⟩ := hs
      refine refuse hi hj ?_
      obtain ⟨o, ho, hr, hobj⟩ := h.get hi
      obtain ⟨p, hp, hrp, hpobj⟩ := h.get hj
      have h1 := hr.2.2.2
      have h2 := hrp.2.1.2.1
      rw [hrp.2.2.1, hrp.2.2.2.1] at h2
      simp only [Know.limits]; omega
    · simp at hs
  | swap i j =>
    simp only [specStep] at hs
    split at hs
    · rename_i x y hi hj
      simp only [Option.some.injEq, Prod.mk.injEq] at hs
      obtain ⟨rfl, rfl⟩ := hs
      obtain ⟨o, ho, hr, hobj⟩ := h.get hi
      obtain ⟨p, hp, hrp, hpobj⟩ := h.get hj
      refine ⟨_, ?_, (h.upd i (k := some y) (o := some p) hrp).upd j (k := some x) (o := some o) hr⟩
      simp only [step]
      rw [hobj, ok_bind, hpobj, ok_bind]
    · simp at hs
  | assign i j =>
    simp only [specStep] at hs
    split at hs
    · rename_i x y hi hj
      simp only [Option.some.injEq, Prod.mk.injEq] at hs
      obtain ⟨rfl, rfl⟩ := hs
      obtain ⟨o, ho, hr, hobj⟩ := h.get hi
      obtain ⟨p, hp, hrp, hpobj⟩ := h.get hj
      refine ⟨_, ?_, h.upd i (k := some y) (o := some p) hrp⟩
      simp only [step]
      rw [hobj, ok_bind, hpobj, ok_bind, hr.live, ok_bind, hrp.live, ok_bind, hrp.eta]
    · simp at hs

theorem run_ok (A : Arith V K) : ∀ (ops : List (Op V K)) {s s' : SEnv V} {e : Env V} {xs : List (Option String)},
    Rel s e → specRun A ops s = some (s', xs) → ∃ e', run A ops e = ok (e', xs) ∧ Rel s' e'
  | [], s, s', e, xs, h, hs => by
    simp only [specRun, Option.some.injEq, Prod.mk.injEq] at hs
    obtain ⟨rfl, rfl⟩ := hs
    exact ⟨e, rfl, h⟩
  | op :: ops, s, s', e, xs, h, hs => by
    simp only [specRun] at hs
    cases h1 : specStep A s op with
    | none => rw [h1] at hs; simp at hs
    | some r =>
      rw [h1] at hs
      cases h2 : specRun A ops r.1 with
      | none => simp [h2] at hs
      | some q =>
        simp only [Option.bind_eq_bind, Option.bind_some, h2, Option.some.injEq, Prod.mk.injEq] at hs
        obtain ⟨rfl, rfl⟩ := hs
        obtain ⟨e1, he1, hr1⟩ := step_ok A h (s' := r.1) (x := r.2) h1
        obtain ⟨e2, he2, hr2⟩ := run_ok A ops hr1 (s' := q.1) (xs := q.2) h2
        refine ⟨e2, ?_, hr2⟩
        simp only [run]
        rw [he1, ok_bind]
        dsimp only
        rw [he2, ok_bind]

/-- **Histories on sets of coefficients.**  Start without objects and make any finite sequence of calls that the
specification allows - objects created, resized, taken from an array, zeroed, scaled by a number, by degree or by order,
added to (also to themselves), assigned to, exchanged, copied and destroyed; calls that throw are caught and the client
goes on.  Then the library does nothing undefined, every call returns or throws as specified, the limits of every object
are as specified, and every determined coefficient is read back with its value, for every arithmetic of the elements. -/
theorem C79_histories (A : Arith V K) (ops : List (Op V K)) {s : SEnv V} {xs : List (Option String)}
    (h : specRun A ops (fun _ => none) = some (s, xs)) :
    ∃ e, run A ops (fun _ => none) = ok (e, xs) ∧
      (∀ i k, s i = some k → limits e i = ok k.limits) ∧
      (∀ i, s i = none → e i = none) ∧
      (∀ i l m v, Known s i l m v → read e i l m = ok (some v)) := by
  have h0 : Rel (fun _ => none : SEnv V) (fun _ => none) := fun _ => trivial
  obtain ⟨e, he, hr⟩ := run_ok A ops h0 h
  refine ⟨e, he, ?_, fun i hi => hr.none hi, ?_⟩
  · intro i k hi
    obtain ⟨o, ho, hk, hobj⟩ := hr.get hi
    unfold limits
    rw [hobj, ok_bind, hk.limits]
  · rintro i l m v ⟨L, M, c, hi, hm, hml, hl, hc⟩
    obtain ⟨o, ho, hk, hobj⟩ := hr.get hi
    unfold read
    rw [hobj, ok_bind, hk.live, ok_bind]
    exact hk.2.2.2.2 l m hm hml hl v hc

/-- The order of the coefficients in the storage is dense: the position that the specification gives to `l`, `m` is
below the number of coefficients, and every position below that number belongs to one pair. -/
theorem C79_positions (L M : ℕ) (hM : M ≤ L) :
    (∀ l m, m ≤ M → m ≤ l → l ≤ L → before L m + (l - m) < before L (M + 1)) ∧
    (∀ p < before L (M + 1), ∃! lm : ℕ × ℕ, lm.2 ≤ M ∧ lm.2 ≤ lm.1 ∧ lm.1 ≤ L ∧ before L lm.2 + (lm.1 - lm.2) = p) := by
  have hn : index (L : ℤ) L M + 1 = ((before L (M + 1) : ℕ) : ℤ) := by
    rw [index_pos hM (le_refl L), before_succ]; push_cast; omega
  have hMZ : (M : ℤ) ≤ (L : ℤ) := by exact_mod_cast hM
  constructor
  · intro l m hm hml hl
    have := index_lt (lmax := (L : ℤ)) (mmax := M) hMZ (l := l) (m := m) ⟨by omega, by omega, by omega, by omega⟩
    rw [index_pos hml hl, hn] at this
    exact_mod_cast this
  · intro p hp
    obtain ⟨l, m, hv, hidx⟩ := index_surj (lmax := (L : ℤ)) M hMZ (p : ℤ) (by omega) (by rw [hn]; exact_mod_cast hp)
    obtain ⟨v1, v2, v3, v4⟩ := hv
    obtain ⟨m, rfl⟩ := Int.eq_ofNat_of_zero_le v1
    obtain ⟨l, rfl⟩ := Int.eq_ofNat_of_zero_le (by omega : 0 ≤ l)
    refine ⟨(l, m), ⟨by exact_mod_cast v2, by exact_mod_cast v3, by exact_mod_cast v4, ?_⟩, ?_⟩
    · rw [index_pos (by exact_mod_cast v3) (by exact_mod_cast v4)] at hidx
      exact_mod_cast hidx
    · rintro ⟨l', m'⟩ ⟨a, b, c, d⟩
      dsimp only at a b c d
      have e1 : index (L : ℤ) (l' : ℤ) (m' : ℤ) = (p : ℤ) := by rw [index_pos b c, d]
      obtain ⟨q1, q2⟩ := index_inj (lmax := (L : ℤ)) (mmax := M) hMZ (l := l') (m := m') (l' := l) (m' := m)
        ⟨by omega, by omega, by omega, by omega⟩ ⟨v1, v2, v3, v4⟩ (e1.trans hidx.symm)
      rw [Prod.mk.injEq]; omega

/-- **Setting the same limits again keeps the coefficients**, although the documentation of `Set` says that it deletes
them: the storage has the right size already.  So does any change of limits that leaves the number of coefficients as it
is; the coefficients are then found at other degrees and orders. -/
theorem C79_set_keeps (o : Obj V) (L M : ℕ) (hM : M ≤ L) (hl : o.lost = none)
    (hsize : o.base.alm.length = before L (M + 1)) :
    set o L M = ok (⟨⟨(L : ℤ), (M : ℤ), o.base.alm⟩, none⟩, none) := by
  unfold set
  rw [numAlms_before hM, hl]
  dsimp only
  rw [if_neg (by omega), Int.toNat_natCast]
  unfold alloc
  rw [if_pos hsize.symm]

/-- **A `Set` that threw leaves limits that do not fit the storage**: an object with limits `L`, `M` is set to limits
with `m > l`, the exception is caught, and the object says `l`, `m`; every coefficient with `m' ≤ m` of the new limits
whose position is not below the old number of coefficients is then read outside of the storage. -/
theorem C79_failed_set (o : Obj V) (l m : ℤ) (h : l < m) :
    ∃ o', set o l m = ok (o', some msgLimits) ∧ o'.base.lmax = l ∧ o'.base.mmax = m ∧ o'.base.alm = o.base.alm ∧
      ∀ l' m', (o.base.alm.length : ℤ) ≤ index l l' m' → ∃ w, o'.base.get l' m' = ub w := by
  refine ⟨{ o with base := { o.base with lmax := l, mmax := m } }, ?_, rfl, rfl, rfl, ?_⟩
  · unfold set; rw [numAlms_refused h]; rfl
  · intro l' m' hidx
    unfold Alm.get
    dsimp only
    unfold rd
    rw [dif_neg (by rintro ⟨a, b⟩; omega)]
    exact ⟨_, rfl⟩

/-- A default object, `Set(1, 2)` caught: coefficient `(1, 1)`, within the limits that the object says it has, is outside. -/
example : ∃ o' : Obj ℕ, set ⟨⟨0, 0, [some 3]⟩, none⟩ 1 2 = ok (o', some msgLimits) ∧ o'.base.lmax = 1 ∧
    o'.base.mmax = 2 ∧ ∃ w, o'.base.get 1 1 = ub w := by
  obtain ⟨o', h1, h2, h3, _, h5⟩ := C79_failed_set (V := ℕ) ⟨⟨0, 0, [some 3]⟩, none⟩ 1 2 (by omega)
  exact ⟨o', h1, h2, h3, h5 1 1 (by decide)⟩

/-- **Negative limits.**  For `m = -2` and `0 ≤ l` the number of coefficients is negative.  The first `Set` throws `bad_alloc`
after the storage was released; destroying the object, or setting it to proper limits, then releases the storage a
second time; and setting it to the same negative limits again throws nothing. -/
theorem C79_negative_limits (o : Obj V) (hl : o.lost = none) (l : ℤ) (h0 : 0 ≤ l) :
    ∃ o', set o l (-2) = ok (o', some "bad_alloc") ∧ destroy o' = ub "storage released twice" ∧
      (∀ L M : ℕ, M ≤ L → set o' L M = ub "storage released twice") ∧
      set o' l (-2) = ok (o', none) := by
  have hn : numAlms l (-2) = ok (-(l + 2)) := by
    unfold numAlms
    rw [if_pos (by omega)]
    congr 1
    norm_num
  refine ⟨⟨{ o.base with lmax := l, mmax := -2 }, some (-(l + 2))⟩, ?_, rfl, ?_, ?_⟩
  · unfold set
    rw [hn, hl]
    dsimp only
    rw [if_pos (by omega)]
  · intro L M hM
    unfold set
    rw [numAlms_before hM]
    dsimp only
    rw [if_neg (by omega)]
  · unfold set
    rw [hn]
    dsimp only
    rw [if_pos rfl]

/-- A history with two objects, a caught exception, an array of coefficients, scaling by degree and an addition: allowed
by the specification, and coefficient `(2,1)` of object 0 is `10*100+50`. -/
example :
    let A : Arith ℤ ℤ := ⟨0, (· * ·), (· + ·), (· + ·)⟩
    ∃ s xs, specRun A [.create 0 2 1, .create 1 2 1, .set 0 1 2, .setArr 0 [1, 2, 3, 4, 5] 2 1, .setArr 0 [1, 2] 2 1,
        .scaleL 0 [1, 10, 100], .scaleL 0 [1], .toZero 1, .put 1 2 1 7, .add 0 1, .swap 0 1] (fun _ => none)
      = some (s, xs) ∧ Known s 1 2 1 507 ∧ Known s 1 1 0 20 ∧
      xs = [none, none, some msgLimits, none, some msgSize, none, some msgScaleL, none, none, none, none] := by
  refine ⟨_, _, rfl, ⟨2, 1, _, rfl, by omega, by omega, by omega, rfl⟩, ⟨2, 1, _, rfl, by omega, by omega, by omega, rfl⟩, rfl⟩

end Verif.AlmHist
