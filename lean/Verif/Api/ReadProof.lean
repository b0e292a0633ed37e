import Verif.Api.Read
import Verif.Api.ObjProps
import Verif.Index.FitsProps

/-! # Reading beam and sky on many ranks: proofs -/

namespace Verif.Obj
open Verif Res Verif.Harm Verif.Fits Verif.Spmd

/-- Number of stored coefficients. -/
def cnt (l m : ℤ) : ℕ := (index l l m + 1).toNat

/-- Limits and storage size of an expansion. -/
def Shaped (l m : ℤ) (a : Alm ℂ) : Prop := a.lmax = l ∧ a.mmax = m ∧ a.alm.length = cnt l m

theorem cnt_pos {l m : ℤ} (h0 : 0 ≤ m) (h : m ≤ l) : 0 < cnt l m ∧ ((cnt l m : ℕ) : ℤ) = index l l m + 1 := by
  have := index_nonneg h0 h (le_refl l)
  unfold cnt
  omega

theorem Shaped.wf {l m : ℤ} (h0 : 0 ≤ m) (h : m ≤ l) {a : Alm ℂ} (ha : Shaped l m a) : a.WF := by
  obtain ⟨h1, h2, h3⟩ := ha
  refine ⟨by omega, by omega, ?_⟩
  rw [h1, h2, h3, numAlms_eq h, (cnt_pos h0 h).2]

theorem shaped_of_wf {a : Alm ℂ} (ha : a.WF) : Shaped a.lmax a.mmax a := by
  refine ⟨rfl, rfl, ?_⟩
  have := ha.len
  unfold cnt; omega

theorem setAlm_ok (junk : ℕ → ℂ) (old : Alm ℂ) {l m : ℤ} (h0 : 0 ≤ m) (h : m ≤ l) :
    ∃ a, setAlm junk old l m = (a, none) ∧ Shaped l m a := by
  have hc := index_nonneg h0 h (le_refl l)
  refine ⟨⟨l, m, (List.range (cnt l m)).map junk⟩, ?_, rfl, rfl, by simp⟩
  unfold setAlm
  rw [numAlms_eq h]
  dsimp only
  rw [if_neg (by omega)]
  rfl

theorem setComps_ok (pol : Bool) (junk : ℕ → ℂ) (c : Comps) {l m : ℤ} (h0 : 0 ≤ m) (h : m ≤ l) :
    ∃ c', setComps pol junk c l m = (c', none) ∧ Shaped l m c'.T ∧ (pol = true → Shaped l m c'.G ∧ Shaped l m c'.C) ∧
      (pol = false → c'.G = c.G ∧ c'.C = c.C) := by
  obtain ⟨T, t1, t2⟩ := setAlm_ok junk c.T h0 h
  obtain ⟨G, g1, g2⟩ := setAlm_ok junk c.G h0 h
  obtain ⟨C, c1, c2⟩ := setAlm_ok junk c.C h0 h
  cases pol with
  | true => exact ⟨⟨T, G, C⟩, by unfold setComps; simp [t1, g1, c1], t2, fun _ => ⟨g2, c2⟩, fun h => by cases h⟩
  | false => exact ⟨{ c with T := T }, by unfold setComps; simp [t1], t2, (fun h => by cases h), fun _ => ⟨rfl, rfl⟩⟩

theorem beam_size {l m : ℤ} (h0 : 0 ≤ m) (h : m ≤ l) :
    ((m + 1) * (m + 2) + 2 * (m + 1) * (l - m)) = 2 * (cnt l m : ℤ) := by
  have h1 := numAlms_eq h
  unfold numAlms at h1
  rw [if_pos h] at h1
  injection h1 with h1
  rw [(cnt_pos h0 h).2, ← h1]
  have he : (m + 1) * (m + 2) % 2 = 0 := by
    rw [show m + 2 = (m + 1) + 1 by ring]
    rcases Int.emod_two_eq_zero_or_one (m + 1) with h | h
    · rw [Int.mul_emod, h]; simp
    · rw [Int.mul_emod, show (m + 1 + 1) % 2 = 0 by omega]; simp
  have : (m + 1) * (m + 2) = 2 * ((m + 1) * (m + 2) / 2) := by omega
  conv_lhs => rw [this]
  ring

theorem sky_size {l : ℤ} (h0 : 0 ≤ l) : ((l + 1) * (l + 2)) = 2 * (cnt l l : ℤ) := by
  have := beam_size h0 (le_refl l)
  rw [← this]; ring

/-! ## collectives -/

theorem exec_bcastI {n : ℕ} (hn : 1 ≤ n) (x : ℕ → ℤ) : Exec n (fun r => bcastI (x r)) (fun _ => x 0) := by
  intro γ f
  unfold bcastI
  simp only [Prog.call_bind]
  refine .step _ _ (fun _ => Ans.int (x 0)) (fun _ _ => rfl) (exec_bcastInt hn x) (.refl (fun _ _ => rfl))

theorem exec_bcastAlm {n : ℕ} (hn : 1 ≤ n) {l m : ℤ} (h0 : 0 ≤ m) (h : m ≤ l) (a : ℕ → Alm ℂ)
    (ha : ∀ r < n, Shaped l m (a r)) : Exec n (fun r => bcastAlm (a r) (2 * (cnt l m : ℤ))) (fun _ => a 0) := by
  intro γ f
  have hc := (cnt_pos h0 h).1
  have hdiv : (2 * (cnt l m : ℤ)) / 2 = cnt l m := by omega
  have htake : ∀ r < n, (a r).alm.take (cnt l m) = (a r).alm := fun r hr =>
    List.take_of_length_le (le_of_eq (ha r hr).2.2)
  have hdrop : ∀ r < n, (a r).alm.drop (cnt l m) = [] := fun r hr =>
    List.drop_eq_nil_of_le (le_of_eq (ha r hr).2.2)
  have hcond : ∀ r < n, 0 < (a r).alm.length ∧ 0 ≤ 2 * (cnt l m : ℤ) ∧ 2 * (cnt l m : ℤ) / 2 ≤ (a r).alm.length := by
    intro r hr
    rw [hdiv, (ha r hr).2.2]
    exact ⟨hc, by omega, le_refl _⟩
  refine .step (fun r => .bcast (a r).alm) (fun r ans => (match ans with
      | .data [ys] => pure { a r with alm := ys ++ [] }
      | _ => Prog.done (.ub "answer") : Prog ℂ (Alm ℂ)) >>= f r) (fun _ => Ans.data [(a 0).alm]) ?_ ?_ ?_
  · intro r hr
    show bcastAlm (a r) _ >>= f r = _
    unfold bcastAlm
    rw [if_pos (hcond r hr), hdiv, Int.toNat_natCast, htake r hr, hdrop r hr]
    rfl
  · exact exec_bcast hn _ (fun r hr => by rw [(ha r hr).2.2, (ha 0 (by omega)).2.2])
  · refine .refl (fun r hr => ?_)
    have e : ({ a r with alm := (a 0).alm ++ [] } : Alm ℂ) = a 0 := by
      obtain ⟨x1, x2, _⟩ := ha r hr
      obtain ⟨y1, y2, _⟩ := ha 0 (by omega)
      rw [List.append_nil]
      cases h1 : a 0
      rw [h1] at y1 y2
      simp only at y1 y2 ⊢
      rw [x1, x2, y1, y2]
    show f r { a r with alm := (a 0).alm ++ [] } = f r (a 0)
    rw [e]

/-- What a rank holds after the broadcast of `c0`. -/
def received (pol : Bool) (c0 c : Comps) : Comps := if pol then c0 else { c with T := c0.T }

theorem exec_bcastComps {n : ℕ} (hn : 1 ≤ n) (pol : Bool) {l m : ℤ} (h0 : 0 ≤ m) (h : m ≤ l) (c : ℕ → Comps)
    (hT : ∀ r < n, Shaped l m (c r).T) (hGC : pol = true → ∀ r < n, Shaped l m (c r).G ∧ Shaped l m (c r).C) :
    Exec n (fun r => bcastComps pol (c r) (2 * (cnt l m : ℤ))) (fun r => received pol (c 0) (c r)) := by
  unfold bcastComps received
  refine Exec.seq (exec_bcastAlm hn h0 h (fun r => (c r).T) hT) ?_
  cases pol with
  | true =>
    have hG := hGC rfl
    simp only [if_true]
    refine Exec.seq (exec_bcastAlm hn h0 h (fun r => (c r).G) (fun r hr => (hG r hr).1)) ?_
    refine Exec.seq (exec_bcastAlm hn h0 h (fun r => (c r).C) (fun r hr => (hG r hr).2)) ?_
    exact Exec.pure (fun _ => (⟨(c 0).T, (c 0).G, (c 0).C⟩ : Comps))
  | false => exact Exec.pure _

/-! ## the reader on rank 0 -/

theorem foldRes_ok_inv {α σ : Type} {f : σ → α → Res σ} (P : σ → Prop)
    (hs : ∀ s x t, P s → f s x = ok t → P t) : ∀ (xs : List α) (s t : σ), P s → foldRes f s xs = ok t → P t
  | [], s, t, h, e => by cases e; exact h
  | x :: xs, s, t, h, e => by
    rw [foldRes_cons] at e
    cases hx : f s x with
    | ok u => rw [hx] at e; exact foldRes_ok_inv P hs xs u t (hs s x u h hx) e
    | throw m => rw [hx] at e; cases e
    | ub w => rw [hx] at e; cases e

theorem readRow_shape {lmax mmax : ℤ} {a b : Alm ℂ} {row : ℤ × ℂ} (h : readRow lmax mmax a row = ok b) :
    b.lmax = a.lmax ∧ b.mmax = a.mmax ∧ b.alm.length = a.alm.length := by
  unfold readRow at h
  simp only at h
  split at h
  · cases h; exact ⟨rfl, rfl, rfl⟩
  · rw [bind_eq_ok] at h
    obtain ⟨p, -, h⟩ := h
    split at h
    · cases h
    · split at h
      · cases h
      · split at h
        · unfold Alm.put at h
          rw [bind_eq_ok] at h
          obtain ⟨d, hd, h⟩ := h
          cases h
          obtain ⟨_, _, rfl⟩ := wr_eq_ok.mp hd
          exact ⟨rfl, rfl, by simp⟩
        · cases h; exact ⟨rfl, rfl, rfl⟩

theorem readAlm_shape {rows : List (ℤ × ℂ)} {chunk : ℕ} {l m : ℤ} (h0 : 0 ≤ m) (hml : m ≤ l) {a : Alm ℂ}
    (h : readAlm 0 rows chunk l m = ok a) : Shaped l m a := by
  obtain ⟨z, hz, hwf, zl, zm, -⟩ := mkZero_ok (0 : ℂ) h0 hml
  unfold readAlm at h
  rw [hz, ok_bind] at h
  have hz' := shaped_of_wf hwf
  rw [zl, zm] at hz'
  refine foldRes_ok_inv (Shaped l m) (fun s x t hs ht => ?_) _ z a hz' h
  refine foldRes_ok_inv (Shaped l m) (fun s x t hs ht => ?_) _ s t hs ht
  obtain ⟨h1, h2, h3⟩ := readRow_shape ht
  exact ⟨h1.trans hs.1, h2.trans hs.2.1, h3.trans hs.2.2⟩

theorem readHdu_shape {fs : Files} {chunk : ℕ} {file : String} {l m : ℤ} {hdu : ℕ} (h0 : 0 ≤ m) (hml : m ≤ l) {a : Alm ℂ}
    (h : readHdu fs chunk file l m hdu = ok a) : Shaped l m a := by
  unfold readHdu at h
  rw [bind_eq_ok] at h
  obtain ⟨t, -, h⟩ := h
  exact readAlm_shape h0 hml h

theorem readComps_shape {pol : Bool} {fs : Files} {chunk : ℕ} {file : String} {l m : ℤ} (h0 : 0 ≤ m) (hml : m ≤ l)
    {c c' : Comps} (h : readComps pol fs chunk file l m c = ok c') :
    Shaped l m c'.T ∧ (pol = true → Shaped l m c'.G ∧ Shaped l m c'.C) ∧ (pol = false → c'.G = c.G ∧ c'.C = c.C) := by
  unfold readComps at h
  cases pol with
  | true =>
    rw [if_pos rfl, bind_eq_ok] at h
    obtain ⟨T, hT, h⟩ := h
    rw [bind_eq_ok] at h
    obtain ⟨G, hG, h⟩ := h
    rw [bind_eq_ok] at h
    obtain ⟨C, hC, h⟩ := h
    cases h
    exact ⟨readHdu_shape h0 hml hT, fun _ => ⟨readHdu_shape h0 hml hG, readHdu_shape h0 hml hC⟩, fun h => by cases h⟩
  | false =>
    rw [if_neg (by decide), bind_eq_ok] at h
    obtain ⟨T, hT, h⟩ := h
    cases h
    exact ⟨readHdu_shape h0 hml hT, (fun h => by cases h), fun _ => ⟨rfl, rfl⟩⟩

/-- The components the file specifies. -/
structure FileComps (pol : Bool) (fs : Files) (chunk : ℕ) (file : String) (l m : ℤ) (c0 : Comps) : Prop where
  T : readHdu fs chunk file l m 2 = ok c0.T
  G : pol = true → readHdu fs chunk file l m 3 = ok c0.G
  C : pol = true → readHdu fs chunk file l m 4 = ok c0.C

theorem FileComps.read {pol : Bool} {fs : Files} {chunk : ℕ} {file : String} {l m : ℤ} {c0 : Comps}
    (h : FileComps pol fs chunk file l m c0) (c : Comps) :
    readComps pol fs chunk file l m c = ok (received pol c0 c) := by
  unfold readComps received
  cases pol with
  | true =>
    rw [if_pos rfl, h.T, ok_bind, h.G rfl, ok_bind, h.C rfl, ok_bind]
    rfl
  | false =>
    rw [if_neg (by decide), h.T, ok_bind]
    rfl

/-- Allocation, reading and broadcast give the components of rank 0's file on every rank. -/
theorem exec_loadComps {n : ℕ} (hn : 1 ≤ n) (pol : Bool) (fs : ℕ → Files) (chunk : ℕ → ℕ) (junk : ℕ → ℕ → ℂ)
    (file : String) {l m : ℤ} (h0 : 0 ≤ m) (h : m ≤ l) (c : ℕ → Comps) (c0 : Comps)
    (hf : FileComps pol (fs 0) (chunk 0) file l m c0) :
    Exec n (fun r => loadComps pol (fs r) (chunk r) (junk r) r file l m (2 * (cnt l m : ℤ)) (c r))
      (fun r => (received pol c0 (c r), none)) := by
  choose d hd hT hGC hold using fun r => setComps_ok pol (junk r) (c r) h0 h
  -- state before the broadcasts
  let e : ℕ → Comps := fun r => if r = 0 then received pol c0 (d 0) else d r
  have hshape : Shaped l m c0.T ∧ (pol = true → Shaped l m c0.G ∧ Shaped l m c0.C) :=
    ⟨readHdu_shape h0 h hf.T, fun hp => ⟨readHdu_shape h0 h (hf.G hp), readHdu_shape h0 h (hf.C hp)⟩⟩
  have eT : ∀ r < n, Shaped l m (e r).T := by
    intro r hr
    simp only [e]
    split
    · unfold received; cases pol <;> exact hshape.1
    · exact hT r
  have eGC : pol = true → ∀ r < n, Shaped l m (e r).G ∧ Shaped l m (e r).C := by
    intro hp r hr
    simp only [e]
    split
    · unfold received; rw [if_pos hp]; exact hshape.2 hp
    · exact hGC r hp
  have hexec := exec_bcastComps hn pol h0 h e eT eGC
  have hprog : ∀ r < n, (bcastComps pol (e r) (2 * (cnt l m : ℤ)) >>= fun c => pure (c, none)) =
      loadComps pol (fs r) (chunk r) (junk r) r file l m (2 * (cnt l m : ℤ)) (c r) := by
    intro r hr
    unfold loadComps
    rw [hd r]
    dsimp only
    by_cases hr0 : r = 0
    · subst hr0
      rw [if_pos rfl, hf.read]
      simp only [e, if_true]
      rfl
    · rw [if_neg hr0]
      simp only [e, if_neg hr0]
      rfl
  have hrec : ∀ r, received pol (e 0) (e r) = received pol c0 (c r) := by
    intro r
    have e0 : e 0 = received pol c0 (d 0) := by simp [e]
    rw [e0]
    unfold received
    cases hpol : pol with
    | true => simp
    | false =>
      have h1 := hold r hpol
      simp only [if_false, Bool.false_eq_true, e]
      have : (if r = 0 then received false c0 (d 0) else d r).G = (c r).G ∧
          (if r = 0 then received false c0 (d 0) else d r).C = (c r).C := by
        split
        · rename_i hr0; subst hr0
          unfold received
          exact h1
        · exact h1
      rw [hpol]
      rw [this.1, this.2]
  refine Exec.congr hn hprog (fun r _ => by rw [← hrec r]) (Exec.seq hexec (Exec.pure _))

end Verif.Obj
