import Verif.Fits.Handle

/-!
# The FITS file handle: specification and single steps
-/

namespace Verif.Fh
open Verif Res
variable {V : Type}

/-! ## Specification -/

/-- A well-formed HDU: every column has a whole number of rows of elements, a numeric column of an ASCII table has one element
per row, an image has as many pixels as its axes say. -/
def GoodHdu (h : Hdu V) : Prop :=
  match h.body with
  | .image _ axes pix => pix.length = prod axes
  | .table b n cols => ∀ c ∈ cols, c.cells.length = n * c.per ∧ (b = false → c.ftc ≠ .string → c.rep = 1)
  | .other => True

/-- A well-formed file. -/
def GoodFile (hdus : List (Hdu V)) : Prop := hdus ≠ [] ∧ ∀ h ∈ hdus, GoodHdu h

/-- All files are well-formed and an open file is positioned at one of its HDUs. -/
def GoodSt (s : St V) : Prop :=
  (∀ f hs, s.disk f = some hs → GoodFile hs) ∧
  ∀ o, s.fptr = some o → GoodFile o.hdus ∧ o.cur < o.hdus.length

/-- The description `i` of a column is true of the column `c` of a (binary or ASCII) table. -/
def Describes (bin : Bool) (c : FCol V) (i : ColInfo) : Prop :=
  i.name = c.name ∧ i.unit = c.unit ∧ i.repcount = (if bin then (c.rep : ℤ) else 1) ∧ ftc2type c.ftc = ok i.type

/-- What the handle says about the current HDU is true; with `full`, it knows all columns. -/
def Knows (full : Bool) (s : St V) (h : Hdu V) : Prop :=
  s.hdutype = h.body.htype ∧
  match h.body with
  | .image _ axes _ => s.axes = axes ∧ s.cols = []
  | .table b n cols => s.nrows = n ∧ (∀ (k : ℕ) (i : ColInfo), s.cols[k]? = some i → ∃ c, cols[k]? = some c ∧ Describes b c i) ∧
      (full → s.cols.length = cols.length)
  | .other => s.cols = []

/-- The handle claims nothing. -/
def Silent (s : St V) : Prop := s.hdutype = .invalid ∧ s.cols = [] ∧ s.axes = []

/-- The handle is in step with the file: it claims nothing, or what it says about the current HDU is true. -/
def Synced (full : Bool) (s : St V) : Prop :=
  match s.fptr with
  | none => Silent s
  | some o => (full = false ∧ Silent s) ∨ ∃ h, o.hdu? = some h ∧ Knows full s h

/-! ## Running methods -/

theorem pure_run {α : Type} (a : α) (s : St V) : (pure a : M V α) s = (ok a, s) := rfl
theorem get_bind {β : Type} (f : St V → M V β) (s : St V) : (get >>= f) s = f s s := rfl
theorem modify_bind {β : Type} (g : St V → St V) (f : Unit → M V β) (s : St V) : (modify g >>= f) s = f () (g s) := rfl
theorem modify_run (g : St V → St V) (s : St V) : modify g s = (ok (), g s) := rfl
theorem lift_run {α : Type} (r : Res α) (s : St V) : (lift r : M V α) s = (r, s) := rfl
theorem lift_ok_bind {α β : Type} (a : α) (f : α → M V β) (s : St V) : (lift (ok a) >>= f) s = f a s := rfl
theorem lift_throw_bind {α β : Type} (m : String) (f : α → M V β) (s : St V) :
    (lift (throw m : Res α) >>= f) s = (throw m, s) := rfl
theorem lift_ub_bind {α β : Type} (m : String) (f : α → M V β) (s : St V) :
    (lift (ub m : Res α) >>= f) s = (ub m, s) := rfl
theorem req_run (b : Bool) (m : String) (s : St V) : req b m s = if b then (ok (), s) else (throw m, s) := rfl
theorem req_bind {β : Type} (b : Bool) (m : String) (f : Unit → M V β) (s : St V) :
    (req b m >>= f) s = if b then f () s else (throw m, s) := by
  cases b <;> rfl
theorem bind_run {α β : Type} (x : M V α) (f : α → M V β) (s : St V) :
    (x >>= f) s = match x s with
      | (.ok a, s') => f a s'
      | (.throw m, s') => (.throw m, s')
      | (.ub w, s') => (.ub w, s') := rfl
theorem file_bind {β : Type} (f : OpenFile V → M V β) (s : St V) :
    (file >>= f) s = match s.fptr with | some o => f o s | none => (ub "null fitsfile", s) := by
  unfold file
  rw [bind_run, get_bind]
  cases s.fptr <;> rfl
theorem setFile_bind {β : Type} (o : OpenFile V) (f : Unit → M V β) (s : St V) :
    (setFile o >>= f) s = f () { s with fptr := some o } := rfl
theorem setFile_run (o : OpenFile V) (s : St V) : setFile o s = (ok (), { s with fptr := some o }) := rfl

/-- `clean_data` never fails. -/
theorem cleanData_run (s : St V) : cleanData s = (ok (), match s.fptr with
    | none => s
    | some _ => { s with axes := [], cols := [], hdutype := .invalid, nrows := 0 }) := rfl

/-- The state `clean_data` leaves behind. -/
def cleaned (s : St V) : St V :=
  match s.fptr with
  | none => s
  | some _ => { s with axes := [], cols := [], hdutype := .invalid, nrows := 0 }

theorem cleanData_bind {β : Type} (f : Unit → M V β) (s : St V) : (cleanData >>= f) s = f () (cleaned s) := rfl

theorem cleaned_fptr (s : St V) : (cleaned s).fptr = s.fptr := by
  unfold cleaned; cases h : s.fptr <;> simp [h]
theorem cleaned_disk (s : St V) : (cleaned s).disk = s.disk := by
  unfold cleaned; cases h : s.fptr <;> simp
theorem cleaned_silent {full : Bool} {s : St V} (h : Synced full s) : Silent (cleaned s) := by
  unfold cleaned Synced at *
  cases hf : s.fptr with
  | none => simpa [hf] using h
  | some o => exact ⟨rfl, rfl, rfl⟩
theorem cleaned_good {s : St V} (h : GoodSt s) : GoodSt (cleaned s) := by
  unfold GoodSt at *
  rw [cleaned_fptr, cleaned_disk]; exact h

/-- The state `clean_all` leaves behind. -/
def closed (s : St V) : St V :=
  match (cleaned s).fptr with
  | none => cleaned s
  | some o => { cleaned s with
      fptr := none
      disk := if o.rw then (fun f => if f = o.name then some o.hdus else s.disk f) else s.disk }

theorem cleanAll_run (s : St V) : cleanAll s = (ok (), closed s) := by
  unfold cleanAll
  rw [cleanData_bind, modify_run]
  unfold closed
  rw [cleaned_disk]
  cases (cleaned s).fptr <;> rfl

theorem cleanAll_bind {β : Type} (f : Unit → M V β) (s : St V) : (cleanAll >>= f) s = f () (closed s) := by
  rw [bind_run, cleanAll_run]

theorem closed_fptr (s : St V) : (closed s).fptr = none := by
  unfold closed
  cases h : (cleaned s).fptr <;> simp [h]

theorem closed_silent {full : Bool} {s : St V} (h : Synced full s) : Silent (closed s) := by
  have := cleaned_silent h
  unfold closed
  cases h : (cleaned s).fptr with
  | none => exact this
  | some o => exact this

theorem closed_good {s : St V} (h : GoodSt s) : GoodSt (closed s) := by
  refine ⟨?_, fun o ho => by rw [closed_fptr] at ho; exact absurd ho (by simp)⟩
  intro f hs hd
  unfold closed at hd
  cases hc : (cleaned s).fptr with
  | none =>
    rw [hc] at hd
    simp only at hd
    rw [cleaned_disk] at hd
    exact h.1 f hs hd
  | some o =>
    rw [hc] at hd
    simp only at hd
    rw [cleaned_fptr] at hc
    split at hd
    · dsimp only at hd
      split at hd
      · injection hd with hd; subst hd; exact (h.2 o hc).1
      · exact h.1 f hs hd
    · exact h.1 f hs hd

/-! ## `init_data` -/

/-- `init_data` only fills the description: it does not touch the files. -/
theorem pushCols_run (b : Bool) (cols : List (FCol V)) (s : St V) :
    ∃ added r, pushCols b cols s = (r, { s with cols := s.cols ++ added }) ∧
      (∀ (k : ℕ) (i : ColInfo), added[k]? = some i → ∃ c, cols[k]? = some c ∧ Describes b c i) ∧
      (r = ok () → added.length = cols.length) ∧ r.NoUB := by
  induction cols generalizing s with
  | nil => exact ⟨[], ok (), by simp [pushCols, pure_run], by simp, by simp, trivial⟩
  | cons c rest ih =>
    unfold pushCols
    cases ht : ftc2type c.ftc with
    | ok t =>
      rw [lift_ok_bind, modify_bind]
      obtain ⟨added, r, h1, h2, h4, h5⟩ := ih { s with cols := s.cols ++ [⟨c.name, c.unit, if b then (c.rep : ℤ) else 1, t⟩] }
      refine ⟨⟨c.name, c.unit, if b then (c.rep : ℤ) else 1, t⟩ :: added, r, ?_, ?_, ?_, h5⟩
      · rw [h1]; simp
      · intro k i hk
        cases k with
        | zero =>
          simp only [List.getElem?_cons_zero, Option.some.injEq] at hk
          subst hk
          exact ⟨c, rfl, rfl, rfl, rfl, ht⟩
        | succ k => simpa using h2 k i (by simpa using hk)
      · intro hr; simp [h4 hr]
    | throw m =>
      rw [lift_throw_bind]
      exact ⟨[], .throw m, by simp, by simp, (by intro h; exact absurd h (by simp)), trivial⟩
    | ub w =>
      exfalso
      cases hf : c.ftc <;> rw [hf] at ht <;> simp [ftc2type] at ht

theorem initData_run (s : St V) {o : OpenFile V} (hf : s.fptr = some o) {h : Hdu V} (hh : o.hdu? = some h) :
    ∃ r s', initData s = (r, s') ∧ s'.fptr = s.fptr ∧ s'.disk = s.disk ∧ Knows false s' h ∧
      (r = ok () → Knows true s' h) ∧ r.NoUB := by
  unfold initData
  rw [cleanData_bind, get_bind, cleaned_fptr, hf]
  simp only [hh, modify_bind]
  have hcf : (cleaned s).fptr = some o := by rw [cleaned_fptr, hf]
  have hcd := cleaned_disk s
  have hcc : (cleaned s).cols = [] := by unfold cleaned; rw [hf]
  rcases hb : h.body with ⟨bp, axes, pix⟩ | ⟨b, n, cols⟩ | _
  · refine ⟨ok (), _, rfl, hcf, hcd, ?_, ?_, trivial⟩
    · unfold Knows; rw [hb]; exact ⟨rfl, rfl, hcc⟩
    · intro _; unfold Knows; rw [hb]; exact ⟨rfl, rfl, hcc⟩
  · simp only [modify_bind]
    obtain ⟨added, r, h1, h2, h4, h5⟩ := pushCols_run b cols
      { cleaned s with hdutype := (Body.table b n cols).htype, nrows := (n : ℤ) }
    refine ⟨r, _, h1, hcf, hcd, ?_, ?_, h5⟩
    · unfold Knows; rw [hb]
      simp only [hcc, List.nil_append]
      exact ⟨trivial, trivial, h2, by simp⟩
    · intro hr
      unfold Knows; rw [hb]
      simp only [hcc, List.nil_append]
      exact ⟨trivial, trivial, h2, fun _ => h4 hr⟩
  · refine ⟨_, _, rfl, hcf, hcd, ?_, ?_, trivial⟩
    · unfold Knows; rw [hb]; exact ⟨rfl, hcc⟩
    · intro hr; exact absurd hr (by simp)

end Verif.Fh
