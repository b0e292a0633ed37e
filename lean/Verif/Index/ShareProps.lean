import Verif.Index.Share

/-! # C29: chunked I/O and work sharing partition the range -/

namespace Verif.Share
open Verif Res

/-- C29 (chunks): for every table `xs` and every positive chunk size, the sequence of chunks
handed out until `getNext` returns `false` (a) re-assembles the table exactly, in order, (b) consists
of non-empty chunks of at most the requested size that stay inside the table, (c) is consecutive,
and (d) has `nchunks` members.  The number of loop iterations needed is bounded by
the table length. -/
theorem C29_chunkMaker_partition {α : Type u} (xs : List α) (chunk fuel : Nat) (hc : 0 < chunk)
    (hf : xs.length ≤ fuel) :
    let cs := (ChunkMaker.new xs.length chunk).all fuel
    readChunked xs cs = xs ∧
    (∀ p ∈ cs, 0 < p.2 ∧ p.2 ≤ chunk ∧ p.1 + p.2 ≤ xs.length) ∧
    (∀ i p q, cs[i]? = some p → cs[i+1]? = some q → q.1 = p.1 + p.2) ∧
    (0 < xs.length → cs.length = (ChunkMaker.new xs.length chunk).nchunks) := by
  have hmul : xs.length ≤ fuel * chunk := le_trans hf (Nat.le_mul_of_pos_right _ hc)
  refine ⟨?_, ?_, ?_, ?_⟩
  · have := all_spec xs chunk hc fuel 0 (by omega)
    simpa [ChunkMaker.new] using this
  · intro p hp
    have := all_pos xs.length chunk hc fuel 0 p hp
    exact ⟨this.2.1, this.2.2.1, this.2.2.2⟩
  · exact fun i p q => all_consecutive xs.length chunk hc fuel 0 i p q
  · intro hpos
    have := all_length xs.length chunk hc fuel 0 (by omega) (by omega)
    unfold ChunkMaker.new ChunkMaker.nchunks
    rw [this]
    simp only
    rw [show xs.length - 0 + (chunk - 1) = (xs.length - 1) + chunk by omega, Nat.add_div_right _ hc]
    omega

/-- non-vacuity: seven items in chunks of three -/
example : (ChunkMaker.new 7 3).all 7 = [(0, 3), (3, 3), (6, 1)] := by decide

/-- C29 (shares): for `glo ≤ ghi` and `nshares > 0` the shares `[lo,hi)` are defined, start at
`glo`, end at `ghi`, each share starts where the previous one ends, and sizes differ by at most
one (the larger ones first). -/
theorem C29_calcShareGeneral_partition (glo ghi nshares : Int) (h : glo ≤ ghi) (hn : 0 < nshares) :
    ∃ lo hi : Int → Int,
      (∀ s, 0 ≤ s → s < nshares → calcShareGeneral glo ghi nshares s = ok (lo s, hi s)) ∧
      lo 0 = glo ∧ hi (nshares - 1) = ghi ∧
      (∀ s, 0 ≤ s → s + 1 < nshares → hi s = lo (s + 1)) ∧
      (∀ s, 0 ≤ s → s < nshares → lo s ≤ hi s) ∧
      (∀ s t, 0 ≤ s → s ≤ t → t < nshares →
        hi t - lo t ≤ hi s - lo s ∧ hi s - lo s ≤ hi t - lo t + 1) := by
  have hw : 0 ≤ ghi - glo := by omega
  have hd : (ghi - glo).tdiv nshares = (ghi - glo) / nshares := Int.tdiv_eq_ediv_of_nonneg hw
  have hm : (ghi - glo).tmod nshares = (ghi - glo) % nshares := Int.tmod_eq_emod_of_nonneg hw
  set q := (ghi - glo) / nshares with hq
  set r := (ghi - glo) % nshares with hr
  have hr0 : 0 ≤ r := Int.emod_nonneg _ (by omega)
  have hr1 : r < nshares := Int.emod_lt_of_pos _ hn
  have hqr : nshares * q + r = ghi - glo := by rw [hq, hr]; exact Int.mul_ediv_add_emod _ _
  have hq0 : 0 ≤ q := Int.ediv_nonneg hw (by omega)
  refine ⟨fun s => glo + s * q + (if s < r then s else r),
    fun s => glo + s * q + (if s < r then s else r) + q + (if s < r then 1 else 0),
    ?_, ?_, ?_, ?_, ?_, ?_⟩
  · intro s _ _
    unfold calcShareGeneral
    rw [if_neg (by omega)]
    simp only [hd, hm]
  · simp only
    split <;> omega
  · have : (nshares - 1) * q = nshares * q - q := by ring
    simp only [this]
    split <;> omega
  · intro s _ _
    have : (s + 1) * q = s * q + q := by ring
    simp only [this]
    split <;> split <;> omega
  · intro s _ _
    simp only
    split <;> omega
  · intro s t _ _ _
    simp only
    split <;> split <;> constructor <;> omega

/-- non-vacuity: 10 items over 3 shares -/
example : calcShareGeneral 5 15 3 0 = ok (5, 9) ∧ calcShareGeneral 5 15 3 1 = ok (9, 12) ∧
    calcShareGeneral 5 15 3 2 = ok (12, 15) := by decide

end Verif.Share
