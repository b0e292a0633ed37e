import Verif.Api.Handles

/-!
# Handles of the C interface: the client's view

Everything here is computed from the calls made so far and what they returned — newest first — without looking at a heap.
-/

namespace Verif.Handle

/-- One call and its answer. -/
abbrev Event := Call × Ret

/-- Class a constructor makes. -/
def Call.makes : Call → Option Kind
  | .newSky _ _ => some .sky
  | .newBeam _ _ => some .beam
  | .newDet _ => some .det
  | .newDetId _ _ => some .det
  | .newPnt _ => some .pnt
  | .newConv _ _ _ _ _ _ _ _ => some .conv
  | _ => none

/-- The handle a constructor returned, if it is not null. -/
def made (e : Event) : Option (ℕ × Kind) :=
  match e.1.makes, e.2 with
  | some k, .ptr a => if a = 0 then none else some (a, k)
  | _, _ => none

/-- The handle a call deletes. -/
def Call.deletes : Call → Option ℕ
  | .del _ p => some p
  | _ => none

/-- Class of the object a handle currently stands for: the last constructor that returned it, unless it was deleted since. -/
def kindOf : List Event → ℕ → Option Kind
  | [], _ => none
  | e :: t, a =>
    match made e with
    | some (b, k) => if a = b then some k else kindOf t a
    | none => if e.1.deletes = some a then none else kindOf t a

/-- Fold over the events since the handle `a` was last made. -/
def since {α : Type} (start : Event → α) (f : ℕ → Event → α → α) : List Event → ℕ → Option α
  | [], _ => none
  | e :: t, a => if (made e).map Prod.fst = some a then some (start e) else (since start f t a).map (f a e)

def epsStep (a : ℕ) (e : Event) (v : Option ℝ) : Option ℝ :=
  match e.1 with
  | .setEps p x => if p = a then some x else v
  | _ => v

/-- The epsilon last set for a detector. -/
def lastEps (es : List Event) (a : ℕ) : Option ℝ := (since (fun _ => none) epsStep es a).join

/-- The id last given to a detector. -/
def lastId (es : List Event) (a : ℕ) : Option (List Char) :=
  since (fun e => match e.1 with | .newDetId _ id => id | _ => []) (fun a e v => match e.1 with
    | .setId p id => if p = a then id else v
    | _ => v) es a

def normStep (a : ℕ) (e : Event) (v : Bool) : Bool :=
  match e.1 with
  | .normalize p => if p = a then true else v
  | _ => v

/-- Has the beam been normalised? -/
def isNorm (es : List Event) (a : ℕ) : Bool := (since (fun _ => false) normStep es a).getD false

inductive Reads where
  | fresh | good | bad
  deriving DecidableEq

/-- Outcome of the last read into a sky or beam. -/
def reads (es : List Event) (a : ℕ) : Option Reads :=
  since (fun _ => .fresh) (fun a e v => match e with
    | (.readSky p _ _, .status i) => if p = a then (if i = 0 then .good else .bad) else v
    | (.readBeam p _ _, .status i) => if p = a then (if i = 0 then .good else .bad) else v
    | _ => v) es a

def limStep (a : ℕ) (e : Event) (v : Option ℤ × Option ℤ) : Option ℤ × Option ℤ :=
  match e.1 with
  | .readSky p x _ => if p = a then (x.lmax, none) else v
  | .readBeam p x _ => if p = a then (x.lmax, x.mmax) else v
  | _ => v

/-- The limits the last read left in a sky (`lmax`) or beam (`lmax`, `mmax`). -/
def lims (es : List Event) (a : ℕ) : Option (Option ℤ × Option ℤ) := since (fun _ => (none, none)) limStep es a

/-- Sky, beam and detector a convolver refers to. -/
def held (es : List Event) (a : ℕ) : Option (ℕ × ℕ × ℕ) :=
  since (fun e => match e.1 with | .newConv _ s b d _ _ _ _ => (s, b, d) | _ => (0, 0, 0)) (fun a e v => match e.1 with
    | .setSky c s => if c = a then (s, v.2.1, v.2.2) else v
    | .setBeam c b => if c = a then (v.1, b, v.2.2) else v
    | .setDet c d => if c = a then (v.1, v.2.1, d) else v
    | _ => v) es a

/-- The numbers in a pointing as the program left them (`none`: never stored); the outer `none` after a failed allocation. -/
def cells (es : List Event) (a : ℕ) : Option (List (Option ℝ)) :=
  (since (fun _ => some []) (fun a e v => match e with
    | (.pntAlloc p n mem, .status i) =>
      if p = a then
        if i = 0 then v.map (fun l => if n = l.length then l else if n = 0 then [] else mem.getD []) else none
      else v
    | (.pntWrite p i x, _) => if p = a then v.map (fun l => l.set i (some x)) else v
    | (.convolve _ p _ _ _ data _, _) => if p = a then v.map (fun l => if l = [] then [] else data) else v
    | _ => v) es a).join

/-- Calls a program may make after the events `es`: every handle stands for an object of the right class, and what is asked
for has been provided before. -/
def WellUsed (es : List Event) : Call → Prop
  | .newSky _ _ | .newBeam _ _ | .newDet _ | .newDetId _ _ | .newPnt _ => True
  | .newConv al s b _ _ lmax mmax _ => CApi.LMAXMAX < lmax ∨ CApi.LMAXMAX < mmax ∨ (∀ a, al ≠ .at a) ∨
      (kindOf es s = some .sky ∧ kindOf es b = some .beam ∧ reads es s = some .good ∧ reads es b = some .good)
  | .del k p => p = 0 ∨ kindOf es p = some k ∧ (k = .pnt → cells es p ≠ none)
  | .readSky p _ _ => kindOf es p = some .sky
  | .readBeam p _ _ => kindOf es p = some .beam
  | .skyLmax p => kindOf es p = some .sky ∧ reads es p = some .good
  | .beamLmax p | .beamMmax p => kindOf es p = some .beam ∧ reads es p = some .good
  | .normalize p => kindOf es p = some .beam ∧ (isNorm es p = true ∨ reads es p = some .good)
  | .normalized p => kindOf es p = some .beam
  | .rmMono p | .rmDip p | .dataSky p _ => kindOf es p = some .sky ∧ reads es p ≠ some .bad
  | .dataBeam p _ => kindOf es p = some .beam ∧ reads es p ≠ some .bad
  | .setEps p _ | .setId p _ => kindOf es p = some .det
  | .getEps p => kindOf es p = some .det ∧ lastEps es p ≠ none
  | .getId p size => kindOf es p = some .det ∧ ∀ id, lastId es p = some id → id.length < size
  | .pntAlloc p _ _ => kindOf es p = some .pnt ∧ cells es p ≠ none
  | .pntData p => kindOf es p = some .pnt
  | .pntWrite p i _ | .pntRead p i => kindOf es p = some .pnt ∧ ∃ l, cells es p = some l ∧ i < l.length
  | .setSky c _ | .setBeam c _ | .setDet c _ => kindOf es c = some .conv
  | .convolve c p cal kern _ _ st => kindOf es c = some .conv ∧ kindOf es p = some .pnt ∧
      ∃ s b d l, held es c = some (s, b, d) ∧ cells es p = some l ∧
        (kern = true → kindOf es s = some .sky ∧ kindOf es b = some .beam) ∧
        (st = none → 5 ≤ l.length → cal = true → kindOf es b = some .beam ∧
          (isNorm es b = true ∨ (kindOf es d = some .det ∧ lastEps es d ≠ none)))

/-- The handles an event acts on. -/
def touches (e : Event) (a : ℕ) : Prop :=
  (made e).map Prod.fst = some a ∨
  match e.1 with
  | .del _ p | .readSky p _ _ | .readBeam p _ _ | .normalize p | .rmMono p | .rmDip p | .setEps p _ | .setId p _
  | .pntAlloc p _ _ | .pntWrite p _ _ | .setSky p _ | .setBeam p _ | .setDet p _ => p = a
  | .convolve c p _ _ _ _ _ => c = a ∨ p = a
  | _ => False

end Verif.Handle
