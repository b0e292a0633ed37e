import Verif.Util.Param

/-! # C81: `getVarStringUnProt` -/

namespace Verif.Param
open Verif Res

/-- `getVarStringUnProt(vpar, key, result)`, parser.c:210-217. -/
def getVarStringUnProt (par : Option Params) (key : List Char) (buf : List Char) : Res (ℤ × List Char) := do
  let idx ← locateParam par key
  if idx < 0 then ok (1, buf)
  else do
    let v ← valueAt par idx
    let b ← strcpy buf v
    ok (0, b)

/-- **C81** (texts without a limit): the value of the first definition is stored with its terminating 0 if the buffer is long enough for
it; otherwise the function writes behind the buffer. An undefined key is reported and the buffer left alone. -/
theorem C81_string_unprot (p : Params) (key buf : List Char) :
    (∀ v, First p key v → v.length < buf.length →
      getVarStringUnProt (some p) key buf = ok (0, v ++ '\x00' :: buf.drop (v.length + 1))) ∧
    (∀ v, First p key v → buf.length ≤ v.length → (getVarStringUnProt (some p) key buf).IsUB) ∧
    ((∀ e ∈ p, e.1 ≠ key) → getVarStringUnProt (some p) key buf = ok (1, buf)) := by
  refine ⟨?_, ?_, ?_⟩
  · intro v h hl
    obtain ⟨i, hi, h1, h2⟩ := located h
    unfold getVarStringUnProt
    rw [h1, ok_bind, if_neg (by omega), h2, ok_bind]
    unfold strcpy
    rw [if_pos (by omega), ok_bind]
  · intro v h hl
    obtain ⟨i, hi, h1, h2⟩ := located h
    unfold getVarStringUnProt
    rw [h1, ok_bind, if_neg (by omega), h2, ok_bind]
    unfold strcpy
    rw [if_neg (by omega)]
    exact True.intro
  · intro h
    unfold getVarStringUnProt
    rw [not_located h, ok_bind, if_pos (by norm_num)]

example : First [("a".toList, "1".toList), ("b".toList, "xyz".toList), ("b".toList, "q".toList)] "b".toList "xyz".toList :=
  ⟨[("a".toList, "1".toList)], [("b".toList, "q".toList)], rfl, by simp⟩

end Verif.Param
