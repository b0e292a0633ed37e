import Verif.Api.AlmHistSpec

/-!
# The objects keep the promise
-/

namespace Verif.AlmHist
open Verif Res Harm

variable {V K : Type}

/-! ## the storage order -/

theorem before_succ (L m : ℕ) : before L (m + 1) = before L m + (L + 1 - m) := by
  unfold before; rw [Finset.sum_range_succ]

theorem index_before (L : ℕ) : ∀ m : ℕ, m ≤ L → index (L : ℤ) m m = (before L m : ℤ)
  | 0, _ => by simp [index, indexL0, before]
  | m + 1, h => by
    have ih := index_before L m (by omega)
    have h2 := @index_next_col (L : ℤ) m
    have h3 : index (L : ℤ) L m = index (L : ℤ) m m + ((L : ℤ) - m) := by unfold index; ring
    have : ((m + 1 : ℕ) : ℤ) = (m : ℤ) + 1 := by push_cast; rfl
    rw [this, h2, h3, ih, before_succ]
    push_cast
    omega

theorem index_pos {L l m : ℕ} (hml : m ≤ l) (hl : l ≤ L) :
    index (L : ℤ) l m = ((before L m + (l - m) : ℕ) : ℤ) := by
  have h := index_before L m (by omega)
  have h3 : index (L : ℤ) l m = index (L : ℤ) m m + ((l : ℤ) - m) := by unfold index; ring
  rw [h3, h]; push_cast; omega

theorem numAlms_before {L M : ℕ} (h : M ≤ L) : numAlms (L : ℤ) M = ok ((before L (M + 1) : ℕ) : ℤ) := by
  rw [numAlms_eq (by exact_mod_cast h), index_pos h (le_refl L), before_succ]
  congr 1; push_cast; omega

theorem before_pos (L M : ℕ) : 0 < before L (M + 1) := by
  unfold before
  rw [Finset.sum_range_succ']
  omega

theorem numAlms_refused {l m : ℤ} (h : l < m) : numAlms l m = .throw msgLimits := by
  unfold numAlms; rw [if_neg (by omega)]; rfl

theorem want_refused {l m : ℤ} (h : want l m = .refused) : l < m := by
  unfold want at h
  by_contra hc
  rw [if_neg hc] at h
  split at h <;> simp at h

theorem want_proper {l m : ℤ} {L M : ℕ} (h : want l m = .proper L M) : l = L ∧ m = M ∧ M ≤ L := by
  unfold want at h
  by_cases h1 : l < m
  · rw [if_pos h1] at h; simp at h
  · rw [if_neg h1] at h
    by_cases h2 : 0 ≤ m
    · rw [if_pos h2] at h; injection h with a b; omega
    · rw [if_neg h2] at h; simp at h

/-! ## the relation -/

/-- An object is as it is known. -/
def Rep : Know V → Obj V → Prop
  | .good L M c, o => o.lost = none ∧ o.base.WF ∧ o.base.lmax = L ∧ o.base.mmax = M ∧
      ∀ l m : ℕ, m ≤ M → m ≤ l → l ≤ L → ∀ v, c l m = some v → o.base.get l m = ok (some v)
  | .failed l m, o => o.lost = none ∧ o.base.lmax = l ∧ o.base.mmax = m ∧ l < m

/-- An optional object is as it is known. -/
def RepO : Option (Know V) → Option (Obj V) → Prop
  | none, none => True
  | some k, some o => Rep k o
  | _, _ => False

/-- All objects are as they are known. -/
def Rel (s : SEnv V) (e : Env V) : Prop := ∀ i, RepO (s i) (e i)

theorem Rel.upd {s : SEnv V} {e : Env V} (h : Rel s e) (i : ℕ) {k : Option (Know V)} {o : Option (Obj V)}
    (hr : RepO k o) : Rel (Function.update s i k) (AlmHist.upd e i o) := by
  intro j
  unfold AlmHist.upd
  by_cases hj : j = i
  · subst hj; simpa using hr
  · rw [Function.update_of_ne hj, Function.update_of_ne hj]; exact h j

theorem Rel.get {s : SEnv V} {e : Env V} (h : Rel s e) {i : ℕ} {k : Know V} (hs : s i = some k) :
    ∃ o, e i = some o ∧ Rep k o ∧ obj e i = ok o := by
  have := h i
  rw [hs] at this
  cases he : e i with
  | none => rw [he] at this; exact this.elim
  | some o => rw [he] at this; exact ⟨o, rfl, this, by unfold obj; rw [he]⟩

theorem Rel.none {s : SEnv V} {e : Env V} (h : Rel s e) {i : ℕ} (hs : s i = none) : e i = none := by
  have := h i
  rw [hs] at this
  cases he : e i with
  | none => rfl
  | some o => rw [he] at this; exact this.elim

theorem Rep.notlost {k : Know V} {o : Obj V} (h : Rep k o) : o.lost = none := by
  cases k with
  | good => exact h.1
  | failed => exact h.1

theorem Rep.live {k : Know V} {o : Obj V} (h : Rep k o) : live o = ok o.base := by
  unfold AlmHist.live; rw [h.notlost]

theorem Rep.eta {k : Know V} {o : Obj V} (h : Rep k o) : (⟨o.base, Option.none⟩ : Obj V) = o := by
  have := h.notlost
  cases o; simp only at this; rw [this]

theorem self_upd {α : Type} (s : ℕ → Option α) (i : ℕ) {k : Option α} (h : s i = k) : Function.update s i k = s := by
  subst h; simp

/-- The limits are told as known. -/
theorem Rep.limits {k : Know V} {o : Obj V} (h : Rep k o) : (o.base.lmax, o.base.mmax) = k.limits := by
  cases k with
  | good L M c => obtain ⟨_, _, h1, h2, _⟩ := h; rw [h1, h2]; rfl
  | failed l m => obtain ⟨_, h1, h2, _⟩ := h; rw [h1, h2]; rfl

/-- New storage of the right size. -/
theorem rep_fresh {L M : ℕ} (hM : M ≤ L) (d : List (Option V)) (hd : d.length = before L (M + 1)) :
    Rep (.good L M fun _ _ => none) ⟨⟨(L : ℤ), (M : ℤ), d⟩, none⟩ := by
  refine ⟨rfl, ⟨by simp, by simpa using hM, ?_⟩, rfl, rfl, ?_⟩
  · dsimp only; rw [numAlms_before hM, hd]
  · intro l m _ _ _ v hv; simp at hv

theorem rep_arr {L M : ℕ} (hM : M ≤ L) (data : List V) (hd : data.length = before L (M + 1)) :
    Rep (.good L M fun l m => data[before L m + (l - m)]?) ⟨⟨(L : ℤ), (M : ℤ), data.map some⟩, none⟩ := by
  refine ⟨rfl, ⟨by simp, by simpa using hM, ?_⟩, rfl, rfl, ?_⟩
  · dsimp only; rw [numAlms_before hM, List.length_map, hd]
  · intro l m _ hml hl v hv
    unfold Alm.get
    dsimp only
    rw [index_pos hml hl, rd_eq_ok]
    refine ⟨by omega, ?_⟩
    dsimp only at hv
    rw [Int.toNat_natCast, List.getElem?_map, hv]; rfl

theorem alloc_length (d : List (Option V)) (n : ℕ) : (alloc d n).length = n := by
  unfold alloc; split
  · rename_i h; exact h.symm
  · simp

/-! ## the loops -/

/-- Element by element replacement of the whole storage. -/
theorem rep_map {L M : ℕ} {c c' : ℕ → ℕ → Option V} {o : Obj V} (h : Rep (.good L M c) o) (f : Option V → Option V)
    (hc : ∀ l m v, c' l m = some v → (∀ y, f y = some v) ∨ ∃ u, c l m = some u ∧ f (some u) = some v) :
    Rep (.good L M c') ⟨{ o.base with alm := o.base.alm.map f }, none⟩ := by
  obtain ⟨h0, h1, h2, h3, h4⟩ := h
  refine ⟨rfl, ?_, h2, h3, ?_⟩
  · unfold Alm.WF at *; simpa using h1
  · intro l m hm hml hl v hv
    have hval : Valid o.base.lmax o.base.mmax (l : ℤ) (m : ℤ) := by
      rw [h2, h3]; unfold Valid; omega
    obtain ⟨w, hw⟩ := Alm.get_ok h1 hval
    have : f w = some v := by
      rcases hc l m v hv with h5 | ⟨u, hu, hfu⟩
      · exact h5 w
      · have := h4 l m hm hml hl u hu
        rw [hw] at this; injection this with this
        rw [this]; exact hfu
    unfold Alm.get at hw ⊢
    dsimp only
    rw [rd_eq_ok] at hw ⊢
    exact ⟨hw.1, by rw [List.getElem?_map, hw.2]; simp [this]⟩

/-- The inner loop of `ScaleL` and `ScaleM`: the first `n` coefficients of column `m`. -/
theorem scale_inner (A : Arith V K) {a : Alm (Option V)} (ha : a.WF) (fac : ℕ → ℕ → Res K) (F : ℕ → ℕ → K)
    (hF : ∀ l m : ℕ, (m : ℤ) ≤ a.mmax → m ≤ l → (l : ℤ) ≤ a.lmax → fac l m = ok (F l m))
    (m : ℕ) (hm : (m : ℤ) ≤ a.mmax) :
    ∀ n : ℕ, (n : ℤ) ≤ a.lmax + 1 - m →
    ∃ b, forN n (fun k (t : Alm (Option V)) => do
        let x ← t.get ((m : ℤ) + k) m
        let f ← fac (m + k) m
        t.put ((m : ℤ) + k) m (x.map (fun v => A.mul v f))) a = ok b ∧ b.WF ∧ b.lmax = a.lmax ∧ b.mmax = a.mmax ∧
      ∀ l' m' : ℕ, Valid a.lmax a.mmax l' m' → ∀ x, a.get l' m' = ok x →
        b.get l' m' = ok (if m' = m ∧ l' < m + n then x.map (fun v => A.mul v (F l' m')) else x)
  | 0, _ => ⟨a, rfl, ha, rfl, rfl, fun l' m' hv x hx => by
      have : ¬ (m' = m ∧ l' < m + 0) := by
        rintro ⟨h1, h2⟩; have := hv.2.2.1; omega
      rw [if_neg this, hx]⟩
  | n + 1, hn => by
    obtain ⟨b, hb, hwf, hl, hmm, hget⟩ := scale_inner A ha fac F hF m hm n (by push_cast at hn; omega)
    have hv : Valid a.lmax a.mmax ((m : ℤ) + n) m := by
      refine ⟨by omega, hm, by omega, by push_cast at hn; omega⟩
    have hvb : Valid b.lmax b.mmax ((m : ℤ) + n) m := by rw [hl, hmm]; exact hv
    obtain ⟨x, hx⟩ := Alm.get_ok ha hv
    have hcast : ((m : ℤ) + (n : ℤ)) = ((m + n : ℕ) : ℤ) := by push_cast; rfl
    have hbx := hget (m + n) m (by rw [← hcast]; exact hv) x (by rw [← hcast]; exact hx)
    rw [if_neg (by omega), ← hcast] at hbx
    have hfac := hF (m + n) m hm (by omega) (by have := hv.2.2.2; push_cast; exact this)
    have hput := b.put_ok hwf hvb (x.map (fun v => A.mul v (F (m + n) m)))
    obtain ⟨w1, w2, w3⟩ := b.put_wf hwf hput
    refine ⟨_, ?_, w1, w2.trans hl, w3.trans hmm, ?_⟩
    · rw [forN_succ, hb, ok_bind, hbx, ok_bind, hfac, ok_bind, hput]
    · intro l' m' hv' y hy
      by_cases he : l' = m + n ∧ m' = m
      · obtain ⟨rfl, rfl⟩ := he
        rw [← hcast] at hy ⊢
        rw [Alm.get_put_same hput]
        rw [hx] at hy; cases hy
        rw [if_pos ⟨rfl, by omega⟩]
      · have hvb' : Valid b.lmax b.mmax l' m' := by rw [hl, hmm]; exact hv'
        rw [Alm.get_put_other hwf hvb hvb' (by intro h; injection h with p q; exact he (by omega)) hput,
          hget l' m' hv' y hy]
        have : (m' = m ∧ l' < m + n) ↔ (m' = m ∧ l' < m + (n + 1)) := by
          constructor
          · rintro ⟨h1, h2⟩; exact ⟨h1, by omega⟩
          · rintro ⟨h1, h2⟩
            exact ⟨h1, by omega⟩
        by_cases hc : m' = m ∧ l' < m + n
        · rw [if_pos hc, if_pos (this.mp hc)]
        · rw [if_neg hc, if_neg (fun h => hc (this.mpr h))]

/-- The double loop multiplies every coefficient by its factor. -/
theorem scaleLoop_ok (A : Arith V K) {a : Alm (Option V)} (ha : a.WF) (fac : ℕ → ℕ → Res K) (F : ℕ → ℕ → K)
    (hF : ∀ l m : ℕ, (m : ℤ) ≤ a.mmax → m ≤ l → (l : ℤ) ≤ a.lmax → fac l m = ok (F l m)) :
    ∃ b, scaleLoop A a fac = ok b ∧ b.WF ∧ b.lmax = a.lmax ∧ b.mmax = a.mmax ∧
      ∀ l m : ℕ, Valid a.lmax a.mmax l m → ∀ x, a.get l m = ok x →
        b.get l m = ok (x.map (fun v => A.mul v (F l m))) := by
  unfold scaleLoop
  have key := forN_inv (a.mmax + 1).toNat (fun m (s : Alm (Option V)) =>
      forN (a.lmax + 1 - m).toNat (fun k (t : Alm (Option V)) => do
        let x ← t.get ((m : ℤ) + k) m
        let f ← fac (m + k) m
        t.put ((m : ℤ) + k) m (x.map (fun v => A.mul v f))) s) a
    (fun i b => b.WF ∧ b.lmax = a.lmax ∧ b.mmax = a.mmax ∧
      ∀ l m : ℕ, Valid a.lmax a.mmax l m → ∀ x, a.get l m = ok x →
        b.get l m = ok (if m < i then x.map (fun v => A.mul v (F l m)) else x))
    ⟨ha, rfl, rfl, fun l m hv x hx => by rw [if_neg (by omega), hx]⟩
    (by
      intro i b hi hb
      obtain ⟨h1, h2, h3, h4⟩ := hb
      have him : (i : ℤ) ≤ a.mmax := by omega
      have hle := ha.2.1
      obtain ⟨c, c1, c2, c3, c4, c5⟩ := scale_inner A h1 fac F
        (by rw [h2, h3]; exact hF) i (by omega) (a.lmax + 1 - i).toNat (by omega)
      refine ⟨c, c1, c2, c3.trans h2, c4.trans h3, ?_⟩
      intro l m hv x hx
      have hb := h4 l m hv x hx
      rw [c5 l m (by rw [h2, h3]; exact hv) _ hb]
      have hv4 := hv.2.2.2
      by_cases hc : m = i
      · rw [if_pos ⟨hc, by omega⟩, if_neg (by omega), if_pos (by omega)]
      · rw [if_neg (by rintro ⟨h, -⟩; exact hc h)]
        by_cases hlt : m < i
        · rw [if_pos hlt, if_pos (by omega)]
        · rw [if_neg hlt, if_neg (by omega)])
  obtain ⟨b, hb, h1, h2, h3, h4⟩ := key
  refine ⟨b, hb, h1, h2, h3, fun l m hv x hx => ?_⟩
  rw [h4 l m hv x hx, if_pos]
  have := ha.1
  have := hv.2.1
  omega

theorem rep_scale {A : Arith V K} {L M : ℕ} {c : ℕ → ℕ → Option V} {o : Obj V} (h : Rep (.good L M c) o)
    (fac : ℕ → ℕ → Res K) (F : ℕ → ℕ → K) (G : ℕ → ℕ → Option K)
    (hF : ∀ l m : ℕ, m ≤ M → m ≤ l → l ≤ L → fac l m = ok (F l m) ∧ G l m = some (F l m)) :
    ∃ b, scaleLoop A o.base fac = ok b ∧
      Rep (.good L M fun l m => Option.map₂ A.mul (c l m) (G l m)) ⟨b, none⟩ := by
  obtain ⟨h0, h1, h2, h3, h4⟩ := h
  obtain ⟨b, b1, b2, b3, b4, b5⟩ := scaleLoop_ok A h1 fac F
    (by rw [h2, h3]; exact fun l m x y z => (hF l m (by omega) y (by omega)).1)
  refine ⟨b, b1, rfl, b2, b3.trans h2, b4.trans h3, ?_⟩
  intro l m hm hml hl v hv
  have hval : Valid o.base.lmax o.base.mmax (l : ℤ) (m : ℤ) := by rw [h2, h3]; unfold Valid; omega
  dsimp only at hv ⊢
  rw [(hF l m hm hml hl).2] at hv
  cases hc : c l m with
  | none => rw [hc] at hv; simp at hv
  | some u =>
    rw [hc] at hv
    rw [b5 l m hval _ (h4 l m hm hml hl u hc)]
    simp only [Option.map₂_some_some, Option.some.injEq] at hv
    rw [← hv]; rfl

/-- The loop of `Add(other)`. -/
theorem add_loop (A : Arith V K) (self : Bool) (a b : List (Option V)) (hlen : a.length = b.length)
    (hself : self = true → a = b) :
    ∃ d, forN a.length (addStep A self b) a = ok d ∧ d.length = a.length ∧
      ∀ (k : ℕ) (x y : Option V), a[k]? = some x → b[k]? = some y → d[k]? = some (addO A x y) := by
  have key := forN_inv a.length (addStep A self b) a
    (fun i (d : List (Option V)) => d.length = a.length ∧ ∀ (k : ℕ) (x y : Option V), a[k]? = some x → b[k]? = some y →
      d[k]? = some (if k < i then addO A x y else x))
    ⟨rfl, fun k x y hx _ => by rw [if_neg (by omega), hx]⟩
    (by
      intro i d hi hd
      obtain ⟨d1, d2⟩ := hd
      have hib : i < b.length := by omega
      have hid : i < d.length := by omega
      have hdi := d2 i _ _ (List.getElem?_eq_getElem hi) (List.getElem?_eq_getElem hib)
      rw [if_neg (by omega)] at hdi
      have hx : rd d (i : ℤ) = ok a[i] := by
        rw [rd_eq_ok]; exact ⟨by omega, by simpa using hdi⟩
      have hy : rd (if self then d else b) (i : ℤ) = ok b[i] := by
        cases self with
        | true =>
          have hab := hself rfl
          subst hab
          simpa using hx
        | false => simpa using rd_nat hib
      refine ⟨d.set i (addO A a[i] b[i]), ?_, by simpa using d1, ?_⟩
      · unfold addStep
        rw [hx, ok_bind, hy, ok_bind, wr_nat _ hid]
      · intro k x y hkx hky
        by_cases hk : k = i
        · subst hk
          rw [List.getElem?_eq_getElem hi] at hkx
          rw [List.getElem?_eq_getElem hib] at hky
          injection hkx with hkx; injection hky with hky
          subst hkx; subst hky
          simp [hid]
        · rw [List.getElem?_set_ne (by omega), d2 k x y hkx hky]
          by_cases hlt : k < i
          · rw [if_pos hlt, if_pos (by omega)]
          · rw [if_neg hlt, if_neg (by omega)])
  obtain ⟨d, hd, h1, h2⟩ := key
  refine ⟨d, hd, h1, fun k x y hx hy => ?_⟩
  rw [h2 k x y hx hy, if_pos]
  exact (List.getElem?_eq_some_iff.mp hx).1

theorem rep_add {A : Arith V K} {L M : ℕ} {c d : ℕ → ℕ → Option V} {o p : Obj V} (h : Rep (.good L M c) o)
    (hp : Rep (.good L M d) p) (self : Bool) (hself : self = true → o = p) :
    ∃ b, add A self o.base p.base = ok (b, none) ∧
      Rep (.good L M fun l m => Option.map₂ A.add (c l m) (d l m)) ⟨b, none⟩ := by
  obtain ⟨h0, h1, h2, h3, h4⟩ := h
  obtain ⟨p0, p1, p2, p3, p4⟩ := hp
  have hlen : o.base.alm.length = p.base.alm.length := by
    have a := h1.len; have b := p1.len
    rw [h2, h3] at a; rw [p2, p3] at b; omega
  obtain ⟨q, q1, q2, q3⟩ := add_loop A self o.base.alm p.base.alm hlen (fun hs => by rw [hself hs])
  refine ⟨{ o.base with alm := q }, ?_, rfl, ?_, h2, h3, ?_⟩
  · unfold add
    rw [if_pos ⟨by rw [h2, p2], by rw [h3, p3]⟩, q1]
    rfl
  · unfold Alm.WF at *
    dsimp only; rw [q2]; exact h1
  · intro l m hm hml hl v hv
    dsimp only at hv
    cases hc : c l m with
    | none => rw [hc] at hv; simp at hv
    | some x =>
      cases hd : d l m with
      | none => rw [hc, hd] at hv; simp at hv
      | some y =>
        rw [hc, hd] at hv
        simp only [Option.map₂_some_some, Option.some.injEq] at hv
        have hx := h4 l m hm hml hl x hc
        have hy := p4 l m hm hml hl y hd
        unfold Alm.get at hx hy ⊢
        dsimp only
        rw [h2] at hx ⊢
        rw [p2] at hy
        rw [rd_eq_ok] at hx hy ⊢
        refine ⟨hx.1, ?_⟩
        rw [q3 _ _ _ hx.2 hy.2, ← hv]; rfl

theorem valid_nat {a : Alm (Option V)} {L M l m : ℕ} (h2 : a.lmax = L) (h3 : a.mmax = M) (hm : m ≤ M) (hml : m ≤ l)
    (hl : l ≤ L) : Valid a.lmax a.mmax (l : ℤ) (m : ℤ) := by
  rw [h2, h3]; unfold Valid; omega

/-- `Add(num)`. -/
theorem rep_addNum {A : Arith V K} {L M : ℕ} {c : ℕ → ℕ → Option V} {o : Obj V} (h : Rep (.good L M c) o) (x : K) :
    ∃ b, addNum A o.base x = ok b ∧
      Rep (.good L M fun l m => if l = 0 ∧ m = 0 then (c l m).map (A.addK · x) else c l m) ⟨b, none⟩ := by
  obtain ⟨h0, h1, h2, h3, h4⟩ := h
  have hv0 : Valid o.base.lmax o.base.mmax ((0 : ℕ) : ℤ) ((0 : ℕ) : ℤ) :=
    valid_nat h2 h3 (by omega) (by omega) (by omega)
  have hi0 : index o.base.lmax ((0 : ℕ) : ℤ) ((0 : ℕ) : ℤ) = 0 := by simp [index, indexL0]
  obtain ⟨w, hw⟩ := Alm.get_ok h1 hv0
  have hput := o.base.put_ok h1 hv0 (w.map (fun v => A.addK v x))
  obtain ⟨w1, w2, w3⟩ := o.base.put_wf h1 hput
  refine ⟨_, ?_, rfl, w1, w2.trans h2, w3.trans h3, ?_⟩
  · have hb := hput
    unfold Alm.put at hb
    unfold Alm.get at hw
    rw [hi0] at hb hw
    unfold addNum
    rw [hw, ok_bind]
    rw [hi0]
    exact hb
  · intro l m hm hml hl v hv
    dsimp only at hv
    have hval := valid_nat (l := l) (m := m) h2 h3 hm hml hl
    by_cases hc : l = 0 ∧ m = 0
    · obtain ⟨rfl, rfl⟩ := hc
      rw [if_pos ⟨rfl, rfl⟩] at hv
      rw [Alm.get_put_same hput]
      cases hc0 : c 0 0 with
      | none => rw [hc0] at hv; simp at hv
      | some u =>
        have := h4 0 0 (by omega) (by omega) (by omega) u hc0
        rw [hw] at this; injection this with this
        rw [this, ← hv, hc0]
    · rw [if_neg hc] at hv
      rw [Alm.get_put_other h1 hv0 hval (by intro e; injection e with p q; exact hc (by omega)) hput]
      exact h4 l m hm hml hl v hv

/-- Assignment to a coefficient. -/
theorem rep_put {L M : ℕ} {c : ℕ → ℕ → Option V} {o : Obj V} (h : Rep (.good L M c) o) {l m : ℤ} (v : V)
    (hlm : 0 ≤ m ∧ m ≤ M ∧ m ≤ l ∧ l ≤ L) :
    ∃ b, o.base.put l m (some v) = ok b ∧
      Rep (.good L M fun l' m' => if (l' : ℤ) = l ∧ (m' : ℤ) = m then some v else c l' m') ⟨b, none⟩ := by
  obtain ⟨h0, h1, h2, h3, h4⟩ := h
  have hval : Valid o.base.lmax o.base.mmax l m := by rw [h2, h3]; exact hlm
  have hput := o.base.put_ok h1 hval (some v)
  obtain ⟨w1, w2, w3⟩ := o.base.put_wf h1 hput
  refine ⟨_, hput, rfl, w1, w2.trans h2, w3.trans h3, ?_⟩
  intro l' m' hm' hml' hl' u hu
  dsimp only at hu
  have hval' := valid_nat (l := l') (m := m') h2 h3 hm' hml' hl'
  by_cases hc : (l' : ℤ) = l ∧ (m' : ℤ) = m
  · rw [if_pos hc] at hu
    rw [hc.1, hc.2, Alm.get_put_same hput, hu]
  · rw [if_neg hc] at hu
    rw [Alm.get_put_other h1 hval hval' (by intro e; injection e with p q; exact hc ⟨p.symm, q.symm⟩) hput]
    exact h4 l' m' hm' hml' hl' u hu

end Verif.AlmHist
