import Verif.Fits.HandleSteps

/-!
# C73: column types
-/

namespace Verif.Fh
open Verif Res
variable {V : Type}

/-- What the elements of a column are. -/
inductive Kind
  | truth | integer | floating | text
  deriving DecidableEq

/-- Kind and width in bytes of the elements of a column in the file (FITS standard: L, B, I, J, K, E, D, A). -/
def fileKind : FTC → Option (Kind × ℕ)
  | .logical => some (.truth, 1)
  | .byte => some (.integer, 1)
  | .short => some (.integer, 2)
  | .int32 => some (.integer, 4)
  | .longlong => some (.integer, 8)
  | .float => some (.floating, 4)
  | .double => some (.floating, 8)
  | .string => some (.text, 1)
  | .other => none

/-- Kind and width of a type in memory. -/
def memKind : PDT → Option (Kind × ℕ)
  | .bool => some (.truth, 1)
  | .int8 | .uint8 => some (.integer, 1)
  | .int16 | .uint16 => some (.integer, 2)
  | .int32 | .uint32 => some (.integer, 4)
  | .int64 | .uint64 => some (.integer, 8)
  | .float32 => some (.floating, 4)
  | .float64 => some (.floating, 8)
  | .string => some (.text, 1)
  | .invalid => none

/-- **C73 (types).** The type the handle reports for a column has the kind and the width of the elements in the file; a binary table
created with a description has columns of the kinds and widths asked for. -/
theorem C73_types :
    (∀ (b : Bool) (c : FCol V) (i : ColInfo), Describes b c i → memKind i.type = fileKind c.ftc ∧ memKind i.type ≠ none) ∧
    (∀ (i : ColInfo) (c : FCol V), bintabCol i = ok c → fileKind c.ftc = memKind i.type ∧ c.name = i.name ∧ c.unit = i.unit ∧
      (c.rep : ℤ) = i.repcount ∧ c.cells = []) := by
  constructor
  · rintro b c i ⟨_, _, _, h⟩
    cases hf : c.ftc <;> rw [hf] at h <;> simp [ftc2type] at h <;> subst_vars <;> rw [← h] <;> exact ⟨rfl, by decide⟩
  · intro i c h
    unfold bintabCol at h
    split at h
    · simp at h
    · obtain ⟨t, ht, h⟩ := bind_eq_ok.mp h
      split at h
      · simp at h
      · rename_i hr
        injection h with h; subst h
        refine ⟨?_, rfl, rfl, by simp only; omega, rfl⟩
        cases hi : i.type <;> rw [hi] at ht <;> simp [type2fitschar] at ht <;> subst ht <;> rfl

end Verif.Fh
