import Verif.Base.Res
import Mathlib.Tactic.Ring
import Mathlib.Tactic.Linarith

/-!
# Work sharing and chunking
Model of `levels/cxxsupport/ls_share_utils.h`.
-/

namespace Verif.Share
open Verif Res

/-- `calcShareGeneral`, levels/cxxsupport/ls_share_utils.h:42-50.  C++ `/` and `%`
truncate (`Int.tdiv`, `Int.tmod`); division by zero is undefined. -/
def calcShareGeneral (glo ghi nshares myshare : Int) : Res (Int × Int) :=
  if nshares = 0 then ub "division by zero" else
  let nwork := ghi - glo
  let nbase := nwork.tdiv nshares
  let additional := nwork.tmod nshares
  let lo := glo + myshare * nbase + (if myshare < additional then myshare else additional)
  let hi := lo + nbase + (if myshare < additional then 1 else 0)
  ok (lo, hi)

/-- State of a `chunkMaker`, levels/cxxsupport/ls_share_utils.h:54-64 (`uint64` fields,
unbounded here). -/
structure ChunkMaker where
  sFull : Nat
  sChunk : Nat
  offset : Nat

/-- Constructor, levels/cxxsupport/ls_share_utils.h:63-64. -/
def ChunkMaker.new (full chunk : Nat) : ChunkMaker := ⟨full, chunk, 0⟩

/-- `chunkMaker::getNext`, levels/cxxsupport/ls_share_utils.h:73-81: `none` is the return
value `false`. -/
def ChunkMaker.getNext (c : ChunkMaker) : Option ((Nat × Nat) × ChunkMaker) :=
  if c.offset ≥ c.sFull then none
  else some ((c.offset, min c.sChunk (c.sFull - c.offset)), { c with offset := c.offset + c.sChunk })

/-- The idiom `while (cm.getNext(offset,ppix)) …` (e.g. alm_fitsio.cc:106-108): the sequence of
`(offset, ppix)` pairs, with an explicit bound on the number of iterations. -/
def ChunkMaker.all : Nat → ChunkMaker → List (Nat × Nat)
  | 0, _ => []
  | fuel + 1, c =>
    match c.getNext with
    | none => []
    | some (p, c') => p :: ChunkMaker.all fuel c'

/-- `chunkMaker::nchunks`, levels/cxxsupport/ls_share_utils.h:67-68 (valid for `s_full > 0`). -/
def ChunkMaker.nchunks (c : ChunkMaker) : Nat := 1 + (c.sFull - 1) / c.sChunk

/-- Reading a list chunk by chunk, as the column readers do. -/
def readChunked {α : Type u} (xs : List α) (chunks : List (Nat × Nat)) : List α :=
  chunks.flatMap (fun p => (xs.drop p.1).take p.2)

theorem all_spec {α : Type u} (xs : List α) (c : Nat) (hc : 0 < c) :
    ∀ (fuel off : Nat), xs.length ≤ off + fuel * c →
      readChunked xs (ChunkMaker.all fuel ⟨xs.length, c, off⟩) = xs.drop off := by
  intro fuel
  induction fuel with
  | zero =>
    intro off h
    have hd : xs.length ≤ off := by omega
    simp [ChunkMaker.all, readChunked, List.drop_eq_nil_of_le hd]
  | succ fuel ih =>
    intro off h
    unfold ChunkMaker.all ChunkMaker.getNext
    by_cases hoff : off ≥ xs.length
    · simp [hoff, readChunked, List.drop_eq_nil_of_le hoff]
    · simp only [if_neg hoff]
      have e : (fuel + 1) * c = fuel * c + c := by ring
      have h2 := ih (off + c) (by omega)
      unfold readChunked at h2 ⊢
      rw [List.flatMap_cons, h2]
      simp only
      by_cases hcm : c ≤ xs.length - off
      · rw [Nat.min_eq_left hcm, show off + c = off + c from rfl, ← List.drop_drop]
        exact List.take_append_drop c (xs.drop off)
      · rw [Nat.min_eq_right (by omega)]
        rw [List.take_of_length_le (by simp)]
        rw [List.drop_eq_nil_of_le (show xs.length ≤ off + c by omega)]
        simp

theorem all_consecutive (full c : Nat) (hc : 0 < c) :
    ∀ (fuel off : Nat), ∀ i p q, (ChunkMaker.all fuel ⟨full, c, off⟩)[i]? = some p →
      (ChunkMaker.all fuel ⟨full, c, off⟩)[i+1]? = some q → q.1 = p.1 + p.2 := by
  intro fuel
  induction fuel with
  | zero => intro off i p q h; simp [ChunkMaker.all] at h
  | succ fuel ih =>
    intro off i p q h1 h2
    unfold ChunkMaker.all ChunkMaker.getNext at h1 h2
    by_cases hoff : off ≥ full
    · simp [hoff] at h1
    · simp only [if_neg hoff] at h1 h2
      cases i with
      | succ i => exact ih (off + c) i p q (by simpa using h1) (by simpa using h2)
      | zero =>
        simp at h1
        subst h1
        simp only
        cases fuel with
        | zero => simp [ChunkMaker.all] at h2
        | succ fuel =>
          unfold ChunkMaker.all ChunkMaker.getNext at h2
          by_cases hoff2 : off + c ≥ full
          · simp [hoff2] at h2
          · simp [hoff2] at h2
            subst h2
            simp only
            omega

theorem all_pos (full c : Nat) (hc : 0 < c) :
    ∀ (fuel off : Nat), ∀ p ∈ ChunkMaker.all fuel ⟨full, c, off⟩,
      off ≤ p.1 ∧ 0 < p.2 ∧ p.2 ≤ c ∧ p.1 + p.2 ≤ full := by
  intro fuel
  induction fuel with
  | zero => intro off p h; simp [ChunkMaker.all] at h
  | succ fuel ih =>
    intro off p h
    unfold ChunkMaker.all ChunkMaker.getNext at h
    by_cases hoff : off ≥ full
    · simp [hoff] at h
    · simp only [if_neg hoff] at h
      rcases List.mem_cons.mp h with rfl | h
      · simp only; omega
      · have := ih (off + c) p h; omega

theorem all_length (full c : Nat) (hc : 0 < c) :
    ∀ (fuel off : Nat), full ≤ off + fuel * c → off ≤ full →
      (ChunkMaker.all fuel ⟨full, c, off⟩).length = (full - off + (c - 1)) / c := by
  intro fuel
  induction fuel with
  | zero =>
    intro off h h'
    have : full - off = 0 := by omega
    simp only [ChunkMaker.all, List.length_nil, this, Nat.zero_add]
    exact (Nat.div_eq_of_lt (by omega)).symm
  | succ fuel ih =>
    intro off h h'
    unfold ChunkMaker.all ChunkMaker.getNext
    have e : (fuel + 1) * c = fuel * c + c := by ring
    by_cases hoff : off ≥ full
    · have : full - off = 0 := by omega
      simp only [if_pos hoff, List.length_nil, this, Nat.zero_add]
      exact (Nat.div_eq_of_lt (by omega)).symm
    · simp only [if_neg hoff, List.length_cons]
      by_cases hle : off + c ≤ full
      · rw [ih (off + c) (by omega) hle]
        rw [show full - off + (c - 1) = (full - (off + c) + (c - 1)) + c by omega,
          Nat.add_div_right _ hc]
      · have hnil : ChunkMaker.all fuel ⟨full, c, off + c⟩ = [] := by
          cases fuel with
          | zero => rfl
          | succ n => simp [ChunkMaker.all, ChunkMaker.getNext, show off + c ≥ full by omega]
        rw [hnil, List.length_nil, Nat.zero_add,
          show full - off + (c - 1) = (full - off - 1) + c by omega, Nat.add_div_right _ hc,
          Nat.div_eq_of_lt (by omega)]

end Verif.Share
