import Verif.Index.Fits

/-! # C26, C27, C28: a_lm tables in FITS files -/

namespace Verif.Fits
open Verif Res Verif.Harm Verif.Share

variable {α : Type}

/-- C26: the explicit index `l*l+l+m+1` decodes to the same `(l,m)` for all `|m| ≤ l`. -/
theorem C26_decode_code (l m : Int) (h1 : -l ≤ m) (h2 : m ≤ l) : decode (code l m) = ok (l, m) :=
  decode_code h1 h2

/-- C26: every positive index is the code of exactly one `(l,m)` with `|m| ≤ l`. -/
theorem C26_code_onto (idx : Int) (h : 1 ≤ idx) :
    ∃ l m, decode idx = ok (l, m) ∧ -l ≤ m ∧ m ≤ l ∧ code l m = idx ∧
      ∀ l' m', -l' ≤ m' → m' ≤ l' → code l' m' = idx → l' = l ∧ m' = m := by
  obtain ⟨l, m, hd, h1, h2, he⟩ := decode_pos h
  exact ⟨l, m, hd, h1, h2, he.symm, fun l' m' a b e => code_inj a b h1 h2 (e.trans he)⟩

/-- C26: indices are ordered by `l`, then `m`. -/
theorem C26_code_lt_iff (l m l' m' : Int) (h1 : -l ≤ m) (h2 : m ≤ l) (h1' : -l' ≤ m') (h2' : m' ≤ l') :
    code l m < code l' m' ↔ (l < l' ∨ (l = l' ∧ m < m')) := by
  unfold code
  constructor
  · intro h
    rcases lt_trichotomy l l' with h3 | h3 | h3
    · exact Or.inl h3
    · subst h3; exact Or.inr ⟨rfl, by omega⟩
    · exfalso; nlinarith
  · rintro (h | ⟨rfl, h⟩)
    · nlinarith
    · omega

example : decode (code 5 (-3)) = ok (5, -3) ∧ code 5 3 < code 6 (-6) := by decide +kernel

/-- C26: a non-positive index (a malformed file) is undefined behaviour in the decoder. -/
theorem C26_decode_nonpos_ub (idx : Int) (h : idx ≤ 0) : (decode idx).IsUB := by
  unfold decode isqrt; rw [if_pos (by omega)]; trivial

/-- C27: for every table (any row order, duplicates, missing rows) whose rows below
the index limit encode some `0 ≤ m ≤ l`, for every positive chunk size and all limits
`0 ≤ mmax ≤ lmax`, reading succeeds, yields an expansion with exactly the requested limits, and
each coefficient is the value of the *last* row carrying its index, or zero. -/
theorem C27_read (zero : α) (rows : List (Int × α)) (chunk : Nat) (hc : 0 < chunk)
    (lmax mmax : Int) (h0 : 0 ≤ mmax) (h : mmax ≤ lmax)
    (hrows : ∀ r ∈ rows, r.1 > lmax * lmax + lmax + mmax + 1 ∨
      ∃ l m, 0 ≤ m ∧ m ≤ l ∧ r.1 = code l m) :
    ∃ a, readAlm zero rows chunk lmax mmax = ok a ∧ a.WF ∧ a.lmax = lmax ∧ a.mmax = mmax ∧
      ∀ l m, Valid lmax mmax l m → a.get l m = ok (lastVal zero rows (code l m)) := by
  obtain ⟨a, ha, hwf, hl, hm, hz⟩ := mkZero_ok zero h0 h
  rw [readAlm_eq zero rows hc, ha]
  exact fold_spec zero a hwf hl hm hz rows hrows

/-- C27: if all indices are positive and some row within the index limit encodes a negative `m`, the
read throws. -/
theorem C27_read_malformed_throws (zero : α) (rows : List (Int × α)) (chunk : Nat) (hc : 0 < chunk)
    (lmax mmax : Int) (h0 : 0 ≤ mmax) (h : mmax ≤ lmax) (hpos : ∀ r ∈ rows, 1 ≤ r.1)
    (hbad : ∃ r ∈ rows, r.1 ≤ lmax * lmax + lmax + mmax + 1 ∧
      ∃ l m, -l ≤ m ∧ m < 0 ∧ r.1 = code l m) :
    (readAlm zero rows chunk lmax mmax).IsThrow := by
  obtain ⟨a, ha, hwf, hl, hm, _⟩ := mkZero_ok zero h0 h
  rw [readAlm_eq zero rows hc, ha]
  refine fold_throw h a hwf hl hm rows hpos ?_
  obtain ⟨r, hr, hle, l, m, h1, h2, he⟩ := hbad
  refine ⟨r, hr, ?_⟩
  rintro (hgt | ⟨l', m', a0, a1, a2⟩)
  · omega
  · have := code_inj (l := l) (m := m) (l' := l') (m' := m') h1 (by omega) (by omega) a1 (by rw [← he, a2])
    omega

/-- C27: a request with `mmax > lmax` throws before anything is read. -/
theorem C27_read_bad_limits_throws (zero : α) (rows : List (Int × α)) (chunk : Nat)
    (lmax mmax : Int) (h : lmax < mmax) : (readAlm zero rows chunk lmax mmax).IsThrow := by
  unfold readAlm mkZero numAlms; rw [if_neg (by omega)]; trivial

/-- C27 is false for non-positive indices: the decoder converts NaN to an integer (undefined
behaviour) instead of raising an error. -/
theorem C27_nonpositive_index_ub :
    (readAlm (0 : Int) [(0, 7)] 4 2 2).IsUB := by decide +kernel

/-- non-vacuity for `C27_read`: duplicates, out-of-range rows and holes -/
example : readAlm (0 : Int) [(code 1 1, 5), (code 7 7, 9), (code 1 1, 6), (code 0 0, 3)] 2 1 1
    = ok ⟨1, 1, [3, 0, 6]⟩ := by decide +kernel
example : (readAlm (0 : Int) [(code 1 (-1), 5)] 2 1 1).IsThrow := by decide +kernel

/-- What a reader with limits `(lr,mr)` should see of an expansion `a` written with limits
`(lw,mw)`: the coefficient where it exists and was written, zero elsewhere. -/
def roundTripSpec (zero : α) (a : Alm α) (lw mw : Nat) (l m : Int) : Res α :=
  if l ≤ a.lmax ∧ m ≤ a.mmax ∧ l ≤ lw ∧ m ≤ mw then a.get l m else ok zero

private theorem rt_core (zero : α) (a : Alm α) (ha : a.WF) (lw mw lr mr : Nat) (hr : mr ≤ lr)
    (chunk : Nat) (hc : 0 < chunk) (ps : List (Nat × Nat)) (val : Nat × Nat → α)
    (hps : ∀ p ∈ ps, p ∈ enum lw mw)
    (hval : ∀ p ∈ enum lw mw, padded zero a p = ok (val p))
    (hmiss : ∀ p ∈ enum lw mw, p ∉ ps → val p = zero) :
    ∃ b, readAlm zero (ps.map (fun q => (code q.1 q.2, val q))) chunk lr mr = ok b ∧ b.WF ∧
      b.lmax = lr ∧ b.mmax = mr ∧
      ∀ l m, Valid lr mr l m → b.get l m = roundTripSpec zero a lw mw l m := by
  obtain ⟨b, hb, hwf, hl, hm, hg⟩ := C27_read zero (ps.map (fun q => (code q.1 q.2, val q))) chunk hc
    lr mr (by omega) (by omega) (by
      intro r hr
      obtain ⟨p, hp, rfl⟩ := List.mem_map.mp hr
      have := mem_enum.mp (hps p hp)
      exact Or.inr ⟨p.1, p.2, by omega, by omega, rfl⟩)
  refine ⟨b, hb, hwf, hl, hm, ?_⟩
  intro l m hv
  rw [hg l m hv]
  obtain ⟨v1, v2, v3, v4⟩ := hv
  obtain ⟨m, rfl⟩ := Int.eq_ofNat_of_zero_le v1
  obtain ⟨l, rfl⟩ := Int.eq_ofNat_of_zero_le (le_trans v1 v3)
  have hrow : ∀ r ∈ ps.map (fun q => (code q.1 q.2, val q)), r.1 = code l m → r.2 = val (l, m) := by
    intro r hr e
    obtain ⟨p, hp, rfl⟩ := List.mem_map.mp hr
    have hp' := mem_enum.mp (hps p hp)
    obtain ⟨e1, e2⟩ := code_inj (by omega) (by omega) (by omega) v3 e
    have : p = (l, m) := by ext <;> simp <;> omega
    rw [this]
  unfold roundTripSpec
  by_cases hin : (l, m) ∈ enum lw mw
  · have hin' := mem_enum.mp hin
    simp only at hin'
    have hpv := hval _ hin
    unfold padded at hpv
    simp only at hpv
    by_cases hp : (l, m) ∈ ps
    · rw [lastVal_eq zero _ _ (val (l, m)) ⟨_, List.mem_map.mpr ⟨(l, m), hp, rfl⟩, rfl⟩ hrow, ← hpv]
      by_cases hc2 : (l : Int) ≤ a.lmax ∧ (m : Int) ≤ a.mmax
      · rw [if_pos hc2, if_pos ⟨hc2.1, hc2.2, by omega, by omega⟩]
      · rw [if_neg hc2, if_neg (fun h => hc2 ⟨h.1, h.2.1⟩)]
    · have hz := hmiss _ hin hp
      rw [lastVal_none]
      · rw [hz] at hpv
        by_cases hc2 : (l : Int) ≤ a.lmax ∧ (m : Int) ≤ a.mmax
        · rw [if_pos hc2] at hpv; rw [if_pos ⟨hc2.1, hc2.2, by omega, by omega⟩, hpv]
        · rw [if_neg (fun h => hc2 ⟨h.1, h.2.1⟩)]
      · intro r hr e
        obtain ⟨p, hp2, rfl⟩ := List.mem_map.mp hr
        have hp' := mem_enum.mp (hps p hp2)
        obtain ⟨e1, e2⟩ := code_inj (by omega) (by omega) (by omega) v3 e
        have : p = (l, m) := by ext <;> simp <;> omega
        exact hp (this ▸ hp2)
  · rw [lastVal_none]
    · rw [if_neg]
      rintro ⟨_, _, h3, h4⟩
      exact hin (mem_enum.mpr ⟨by simpa using h3, by simp; omega, by simpa using h4⟩)
    · intro r hr e
      obtain ⟨p, hp2, rfl⟩ := List.mem_map.mp hr
      have hp' := mem_enum.mp (hps p hp2)
      obtain ⟨e1, e2⟩ := code_inj (by omega) (by omega) (by omega) v3 e
      have : p = (l, m) := by ext <;> simp <;> omega
      exact hin (this ▸ hps p hp2)

theorem exists_val (zero : α) (a : Alm α) (ha : a.WF) (lw mw : Nat) :
    ∃ val : Nat × Nat → α, ∀ p ∈ enum lw mw, padded zero a p = ok (val p) := by
  refine ⟨fun p => match padded zero a p with | ok v => v | _ => zero, ?_⟩
  intro p hp
  have hp' := mem_enum.mp hp
  have : ∃ v, padded zero a p = ok v := by
    unfold padded
    split
    · rename_i h
      exact Alm.get_ok ha ⟨by omega, h.2, by omega, h.1⟩
    · exact ⟨zero, rfl⟩
  obtain ⟨v, hv⟩ := this
  simp only [hv]

/-- C28: writing an expansion with limits `(lw,mw)` and reading the table with limits `(lr,mr)`
gives, for arbitrary combinations of the three pairs of limits, exactly the
written coefficients, zero-padded. -/
theorem C28_write_read (zero : α) (a : Alm α) (ha : a.WF) (lw mw lr mr : Nat) (hw : mw ≤ lw)
    (hr : mr ≤ lr) (chunk : Nat) (hc : 0 < chunk) :
    ∃ rows b, writeAlm zero a lw mw = ok rows ∧ readAlm zero rows chunk lr mr = ok b ∧ b.WF ∧
      b.lmax = lr ∧ b.mmax = mr ∧
      ∀ l m, Valid lr mr l m → b.get l m = roundTripSpec zero a lw mw l m := by
  obtain ⟨val, hval⟩ := exists_val zero a ha lw mw
  have hwalk := walk_enum hw 0
  simp only [Nat.add_zero, walk, List.append_nil] at hwalk
  have hwr : writeAlm zero a lw mw =
      ok ((enum lw mw).map (fun q => (code q.1 q.2, val q))) := by
    unfold writeAlm
    rw [writeFrom_walk zero a mw val _ _ (by rw [hwalk]; exact hval), hwalk]
  obtain ⟨b, hb⟩ := rt_core zero a ha lw mw lr mr hr chunk hc (enum lw mw) val (fun _ h => h) hval
    (fun p h h' => absurd h h')
  exact ⟨_, b, hwr, hb⟩

/-- C28: same limits — the round trip is the identity. -/
theorem C28_write_read_id (zero : α) (a : Alm α) (ha : a.WF) (chunk : Nat) (hc : 0 < chunk) :
    ∃ rows, writeAlm zero a a.lmax.toNat a.mmax.toNat = ok rows ∧
      readAlm zero rows chunk a.lmax a.mmax = ok a := by
  have h0 := ha.1
  have h1 := ha.2.1
  have e1 : (a.lmax.toNat : Int) = a.lmax := by omega
  have e2 : (a.mmax.toNat : Int) = a.mmax := by omega
  obtain ⟨rows, b, hw, hr, hwf, hl, hm, hg⟩ := C28_write_read zero a ha a.lmax.toNat a.mmax.toNat
    a.lmax.toNat a.mmax.toNat (by omega) (by omega) chunk hc
  rw [e1] at hr hl; rw [e2] at hr hm
  refine ⟨rows, hw, ?_⟩
  rw [hr]
  congr 1
  refine Alm.ext_get hwf ha hl hm ?_
  intro l m hv
  rw [hl, hm] at hv
  rw [hg l m (by rw [e1, e2]; exact hv)]
  unfold roundTripSpec
  rw [e1, e2, if_pos ⟨hv.2.2.2, hv.2.1, hv.2.2.2, hv.2.1⟩]

/-- C28 (compressed): if `norm()` vanishes only for zero coefficients and is ordered
(`norm()>0 ↔ ¬ norm()==0`, i.e. no NaN and no underflow), compressed writing within the limits of the
expansion followed by reading gives the same as the plain round trip. -/
theorem C28_compressed_write_read_partial (zero : α) (pos isZero : α → Bool)
    (hpz : ∀ v, pos v = !isZero v) (hz : ∀ v, isZero v = true → v = zero)
    (a : Alm α) (ha : a.WF) (lw mw lr mr : Nat) (hw : mw ≤ lw)
    (hla : (lw : Int) ≤ a.lmax) (hma : (mw : Int) ≤ a.mmax)
    (hr : mr ≤ lr) (chunk : Nat) (hc : 0 < chunk) :
    ∃ rows b, writeCompressed pos isZero a lw mw = ok rows ∧
      (∀ r ∈ rows, isZero r.2 = false) ∧
      readAlm zero rows chunk lr mr = ok b ∧ b.WF ∧
      b.lmax = lr ∧ b.mmax = mr ∧
      ∀ l m, Valid lr mr l m → b.get l m = roundTripSpec zero a lw mw l m := by
  obtain ⟨val, hval⟩ := exists_val zero a ha lw mw
  have hget : ∀ q ∈ enum lw mw, a.get q.1 q.2 = ok (val q) := by
    intro q hq
    have := hval q hq
    have hq' := mem_enum.mp hq
    unfold padded at this
    rwa [if_pos (by constructor <;> omega)] at this
  have hwalk := walk_enum hw 0
  simp only [Nat.add_zero, walk, List.append_nil] at hwalk
  set qs := (enum lw mw).filter (fun q => !isZero (val q)) with hqs
  have hcount : countNonzero pos a lw mw = ok qs.length := by
    rw [countNonzero_spec pos a lw mw val hget, hqs, List.countP_eq_length_filter]
    simp only [hpz]
  have hwr : writeCompressed pos isZero a lw mw = ok (qs.map (fun q => (code q.1 q.2, val q))) := by
    unfold writeCompressed
    rw [hcount]
    simp only [ok_bind]
    exact writeCompFrom_spec isZero a mw (nAlms lw mw) val qs (nAlms lw mw) (0, 0) le_rfl
      (by rw [hwalk]; exact hget) (by rw [hwalk])
  obtain ⟨b, hb⟩ := rt_core zero a ha lw mw lr mr hr chunk hc qs val
    (fun p hp => (List.mem_filter.mp hp).1) hval
    (by
      intro p hp hnp
      apply hz
      by_contra hne
      exact hnp (List.mem_filter.mpr ⟨hp, by simpa using hne⟩))
  refine ⟨_, b, hwr, ?_, hb⟩
  intro r hr
  obtain ⟨q, hq, rfl⟩ := List.mem_map.mp hr
  simpa using (List.mem_filter.mp hq).2

/-- non-vacuity: an expansion with lmax 2, mmax 1 with zeros, written compressed -/
example : let a : Alm Int := ⟨2, 1, [4, 0, 5, 0, 6]⟩
    a.WF ∧ writeAlm 0 a 2 1 = ok [(1, 4), (3, 0), (4, 0), (7, 5), (8, 6)] ∧
    writeCompressed (fun v => v != 0) (fun v => v == 0) a 2 1 = ok [(1, 4), (7, 5), (8, 6)] ∧
    readAlm 0 [(1, 4), (7, 5), (8, 6)] 2 2 1 = ok a := by decide +kernel

/-- Without the NaN-free hypothesis the compressed round trip is false of the code: a NaN
coefficient (`norm()>0` and `norm()==0` both false; `none` here) makes the writer drop a
different, finite coefficient. -/
theorem C28_compressed_nan_drops_coefficient :
    let isZero : Option Int → Bool := fun v => v == some 0
    let pos : Option Int → Bool := fun v => match v with | some x => x != 0 | none => false
    let a : Alm (Option Int) := ⟨1, 0, [none, some 5]⟩
    a.WF ∧ a.get 1 0 = ok (some 5) ∧
    ∃ rows b, writeCompressed pos isZero a 1 0 = ok rows ∧ readAlm (some 0) rows 2 1 0 = ok b ∧
      b.get 1 0 = ok (some 0) := by
  refine ⟨by decide +kernel, by decide +kernel, [(1, none)], ⟨1, 0, [none, some 0]⟩, by decide +kernel, by decide +kernel, by decide +kernel⟩

/-- C28: `get_almsize` on a table written by `write_Alm_to_fits` returns the limits used for
writing, both through the header keys and by scanning the index column. -/
theorem C28_get_almsize_keys (rows : List (Int × α)) (lw mw : Nat) :
    getAlmSize (⟨some lw, some mw, rows⟩ : Table α) = ok ((lw : Int), (mw : Int)) := rfl

private theorem scan_spec (ps : List (Nat × Nat)) (val : Nat × Nat → α) (hps : ∀ p ∈ ps, p.2 ≤ p.1) :
    ∃ L M : Int, foldRes (fun (s : Int × Int) (row : Int × α) => do
      let (l, m) ← decode row.1
      ok (if l > s.1 then l else s.1, if m > s.2 then m else s.2)) (-1, -1)
        (ps.map (fun q => (code q.1 q.2, val q))) = ok (L, M) ∧
      (∀ p ∈ ps, (p.1 : Int) ≤ L ∧ (p.2 : Int) ≤ M) ∧
      (L = -1 ∨ ∃ p ∈ ps, (p.1 : Int) = L) ∧ (M = -1 ∨ ∃ p ∈ ps, (p.2 : Int) = M) := by
  induction ps using List.reverseRecOn with
  | nil => exact ⟨-1, -1, rfl, by simp, Or.inl rfl, Or.inl rfl⟩
  | append_singleton ps p ih =>
    obtain ⟨L, M, h1, h2, h3, h4⟩ := ih (fun q hq => hps q (by simp [hq]))
    have hp := hps p (by simp)
    rw [List.map_append, foldRes_append, h1]
    refine ⟨if (p.1 : Int) > L then p.1 else L, if (p.2 : Int) > M then p.2 else M, ?_, ?_, ?_, ?_⟩
    · simp only [Res.bind, List.map_cons, List.map_nil, foldRes_cons, foldRes_nil]
      rw [decode_code (by omega) (by omega)]
      rfl
    · intro q hq
      rcases List.mem_append.mp hq with hq | hq
      · have := h2 q hq
        constructor <;> split <;> omega
      · obtain rfl := List.mem_singleton.mp hq
        constructor <;> split <;> omega
    · split
      · exact Or.inr ⟨p, by simp, rfl⟩
      · rcases h3 with h3 | ⟨q, hq, e⟩
        · exact Or.inl h3
        · exact Or.inr ⟨q, by simp [hq], e⟩
    · split
      · exact Or.inr ⟨p, by simp, rfl⟩
      · rcases h4 with h4 | ⟨q, hq, e⟩
        · exact Or.inl h4
        · exact Or.inr ⟨q, by simp [hq], e⟩

/-- C28: scanning the index column of a written table (no header keys) recovers the limits. -/
theorem C28_get_almsize_scan (zero : α) (a : Alm α) (ha : a.WF) (lw mw : Nat) (hw : mw ≤ lw) :
    ∃ rows, writeAlm zero a lw mw = ok rows ∧
      getAlmSize (⟨none, none, rows⟩ : Table α) = ok ((lw : Int), (mw : Int)) := by
  obtain ⟨val, hval⟩ := exists_val zero a ha lw mw
  have hwalk := walk_enum hw 0
  simp only [Nat.add_zero, walk, List.append_nil] at hwalk
  have hwr : writeAlm zero a lw mw = ok ((enum lw mw).map (fun q => (code q.1 q.2, val q))) := by
    unfold writeAlm
    rw [writeFrom_walk zero a mw val _ _ (by rw [hwalk]; exact hval), hwalk]
  refine ⟨_, hwr, ?_⟩
  obtain ⟨L, M, h1, h2, h3, h4⟩ := scan_spec (enum lw mw) val (fun p hp => (mem_enum.mp hp).2.1)
  unfold getAlmSize
  simp only
  rw [h1]
  have hL := (h2 (lw, mw) (mem_enum.mpr ⟨le_rfl, hw, le_rfl⟩))
  simp only at hL
  congr 2
  · rcases h3 with h3 | ⟨p, hp, e⟩
    · omega
    · have := (mem_enum.mp hp).1; omega
  · rcases h4 with h4 | ⟨p, hp, e⟩
    · omega
    · have := (mem_enum.mp hp).2.2; omega

example : getAlmSize (⟨none, none, [(1, 4), (3, 0), (4, 0), (7, 5), (8, 6)]⟩ : Table Int)
    = ok (2, 1) := by decide +kernel

/-- C28 as stated, compressed writer: whatever the coefficients (`pos`, `isZero` are the tests `norm()>0`, `norm()==0`, of
which at most one holds, and the second only for zero). -/
def C28_Full : Prop :=
  ∀ (pos isZero : Option Int → Bool), (∀ v, ¬(pos v = true ∧ isZero v = true)) → (∀ v, isZero v = true → v = some 0) →
    ∀ (a : Alm (Option Int)), a.WF → ∀ (lw mw : Nat), mw ≤ lw → (lw : Int) ≤ a.lmax → (mw : Int) ≤ a.mmax → ∀ chunk, 0 < chunk →
    ∃ rows b, writeCompressed pos isZero a lw mw = ok rows ∧ readAlm (some 0) rows chunk lw mw = ok b ∧
      ∀ l m, Valid lw mw l m → b.get l m = roundTripSpec (some 0) a lw mw l m

theorem C28_full_refuted : ¬ C28_Full := by
  intro h
  obtain ⟨h1, h2, rows, b, h3, h4, h5⟩ := C28_compressed_nan_drops_coefficient
  obtain ⟨rows', b', g1, g2, g3⟩ := h (fun v => match v with | some x => x != 0 | none => false) (fun v => v == some 0)
    (by rintro (_ | v) <;> simp) (by intro v hv; simpa using hv) _ h1 1 0 (by decide) (by decide) (by decide) 2 (by decide)
  rw [h3] at g1; cases g1
  rw [show readAlm (some 0) rows 2 ((1 : Nat) : Int) ((0 : Nat) : Int) = ok b from h4] at g2; cases g2
  have := g3 1 0 (by decide)
  rw [h5] at this
  revert this
  decide +kernel

end Verif.Fits
