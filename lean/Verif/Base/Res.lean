/-!
# Outcomes of C++ code

`Res α` is the outcome of a piece of C++ code: a value, a C++ exception, or undefined
behaviour.  Out-of-bounds accesses, out-of-range float→integer conversions etc. are
mapped to `ub`; a theorem that a function returns `ok` therefore contains memory safety.
-/

namespace Verif

inductive Res (α : Type u) where
  | ok (a : α)
  | throw (msg : String)
  | ub (why : String)
  deriving Repr, DecidableEq

namespace Res

def bind {α : Type u} {β : Type v} : Res α → (α → Res β) → Res β
  | ok a, f => f a
  | throw m, _ => throw m
  | ub w, _ => ub w

instance : Monad Res where
  pure := Res.ok
  bind := Res.bind

@[simp] theorem pure_def {α : Type u} (a : α) : (pure a : Res α) = ok a := rfl
@[simp] theorem ok_bind {α β : Type u} (a : α) (f : α → Res β) : (ok a >>= f) = f a := rfl
@[simp] theorem throw_bind {α β : Type u} (m : String) (f : α → Res β) :
    ((throw m : Res α) >>= f) = throw m := rfl
@[simp] theorem ub_bind {α β : Type u} (m : String) (f : α → Res β) :
    ((ub m : Res α) >>= f) = ub m := rfl

theorem bind_eq_ok {α β : Type u} {x : Res α} {f : α → Res β} {b : β} :
    (x >>= f) = ok b ↔ ∃ a, x = ok a ∧ f a = ok b := by
  cases x <;> simp

instance : LawfulMonad Res := LawfulMonad.mk' Res
  (id_map := fun x => by cases x <;> rfl)
  (pure_bind := fun _ _ => rfl)
  (bind_assoc := fun x f g => by cases x <;> rfl)

/-- The outcome is not undefined behaviour. -/
def NoUB {α : Type u} : Res α → Prop
  | ub _ => False
  | _ => True

/-- The outcome is undefined behaviour. -/
def IsUB {α : Type u} : Res α → Prop
  | ub _ => True
  | _ => False

/-- The outcome is a C++ exception. -/
def IsThrow {α : Type u} : Res α → Prop
  | throw _ => True
  | _ => False

instance {α : Type u} (r : Res α) : Decidable r.IsUB := by
  cases r <;> simp only [IsUB] <;> infer_instance
instance {α : Type u} (r : Res α) : Decidable r.IsThrow := by
  cases r <;> simp only [IsThrow] <;> infer_instance

end Res

open Res

/-- Bounds-checked read `xs[i]` of a C++ buffer (index of a signed type). -/
def rd {α : Type u} (xs : List α) (i : Int) : Res α :=
  if h : 0 ≤ i ∧ i.toNat < xs.length then ok (xs[i.toNat]'h.2) else ub "read out of bounds"

/-- Bounds-checked write `xs[i] = v`. -/
def wr {α : Type u} (xs : List α) (i : Int) (v : α) : Res (List α) :=
  if 0 ≤ i ∧ i.toNat < xs.length then ok (xs.set i.toNat v) else ub "write out of bounds"

theorem rd_ok {α : Type u} {xs : List α} {i : Int} (h0 : 0 ≤ i) (h : i.toNat < xs.length) :
    rd xs i = ok (xs[i.toNat]'h) := by
  unfold rd; rw [dif_pos ⟨h0, h⟩]

theorem rd_nat {α : Type u} {xs : List α} {i : Nat} (h : i < xs.length) :
    rd xs (i : Int) = ok xs[i] := by
  rw [rd_ok (by omega) (by simpa using h)]; simp

theorem rd_eq_ok {α : Type u} {xs : List α} {i : Int} {a : α} :
    rd xs i = ok a ↔ 0 ≤ i ∧ xs[i.toNat]? = some a := by
  unfold rd
  split
  · rename_i h; simp [List.getElem?_eq_getElem h.2, h.1]
  · rename_i h
    constructor
    · intro h'; cases h'
    · rintro ⟨h1, h2⟩
      exact absurd ⟨h1, (List.getElem?_eq_some_iff.mp h2).1⟩ h

theorem rd_ub {α : Type u} {xs : List α} {i : Int} (h : i < 0 ∨ (xs.length : Int) ≤ i) :
    rd xs i = ub "read out of bounds" := by
  unfold rd; rw [dif_neg]; omega

theorem wr_ok {α : Type u} {xs : List α} {i : Int} (v : α) (h0 : 0 ≤ i) (h : i.toNat < xs.length) :
    wr xs i v = ok (xs.set i.toNat v) := by
  unfold wr; rw [if_pos ⟨h0, h⟩]

theorem wr_nat {α : Type u} {xs : List α} {i : Nat} (v : α) (h : i < xs.length) :
    wr xs (i : Int) v = ok (xs.set i v) := by
  rw [wr_ok v (by omega) (by simpa using h)]; simp

theorem wr_ub {α : Type u} {xs : List α} {i : Int} (v : α) (h : i < 0 ∨ (xs.length : Int) ≤ i) :
    wr xs i v = ub "write out of bounds" := by
  unfold wr; rw [if_neg]; omega

theorem wr_eq_ok {α : Type u} {xs ys : List α} {i : Int} {v : α} :
    wr xs i v = ok ys ↔ 0 ≤ i ∧ i.toNat < xs.length ∧ ys = xs.set i.toNat v := by
  unfold wr
  split
  · rename_i h; simp [h.1, h.2, eq_comm]
  · rename_i h
    constructor
    · intro h'; cases h'
    · rintro ⟨h1, h2, _⟩; exact absurd ⟨h1, h2⟩ h

/-- `for (long i = 0; i < n; ++i) s = f(i, s)` -/
def forN {σ : Type u} : Nat → (Nat → σ → Res σ) → σ → Res σ
  | 0, _, s => ok s
  | n + 1, f, s => forN n f s >>= f n

@[simp] theorem forN_zero {σ : Type u} (f : Nat → σ → Res σ) (s : σ) : forN 0 f s = ok s := rfl
theorem forN_succ {σ : Type u} (n : Nat) (f : Nat → σ → Res σ) (s : σ) :
    forN (n + 1) f s = (forN n f s >>= f n) := rfl

/-- Loop rule with invariant. -/
theorem forN_inv {σ : Type u} (n : Nat) (f : Nat → σ → Res σ) (s : σ) (P : Nat → σ → Prop)
    (h0 : P 0 s)
    (hs : ∀ i t, i < n → P i t → ∃ t', f i t = ok t' ∧ P (i + 1) t') :
    ∃ t, forN n f s = ok t ∧ P n t := by
  induction n with
  | zero => exact ⟨s, rfl, h0⟩
  | succ n ih =>
    obtain ⟨t, ht, hP⟩ := ih (fun i t hi => hs i t (by omega))
    obtain ⟨t', ht', hP'⟩ := hs n t (by omega) hP
    exact ⟨t', by rw [forN_succ, ht]; simpa using ht', hP'⟩

/-- Partial-correctness loop rule: if the loop returns normally then the invariant holds. -/
theorem forN_ok_inv {σ : Type u} (n : Nat) (f : Nat → σ → Res σ) (s t : σ) (P : Nat → σ → Prop)
    (h0 : P 0 s)
    (hs : ∀ i t t', i < n → P i t → f i t = ok t' → P (i + 1) t')
    (h : forN n f s = ok t) : P n t := by
  induction n generalizing t with
  | zero => cases h; exact h0
  | succ n ih =>
    rw [forN_succ, bind_eq_ok] at h
    obtain ⟨u, hu, hf⟩ := h
    exact hs n u t (by omega) (ih u (fun i t t' hi => hs i t t' (by omega)) hu) hf

/-- Loop over a list, `for (x : xs) s = f(s, x)`. -/
def foldRes {α : Type u} {σ : Type v} (f : σ → α → Res σ) : σ → List α → Res σ
  | s, [] => ok s
  | s, x :: xs => Res.bind (f s x) (fun t => foldRes f t xs)

@[simp] theorem foldRes_nil {α : Type u} {σ : Type v} (f : σ → α → Res σ) (s : σ) :
    foldRes f s [] = ok s := rfl
theorem foldRes_cons {α : Type u} {σ : Type v} (f : σ → α → Res σ) (s : σ) (x : α) (xs : List α) :
    foldRes f s (x :: xs) = Res.bind (f s x) (fun t => foldRes f t xs) := rfl

theorem foldRes_append {α : Type u} {σ : Type v} (f : σ → α → Res σ) (s : σ) (xs ys : List α) :
    foldRes f s (xs ++ ys) = Res.bind (foldRes f s xs) (fun t => foldRes f t ys) := by
  induction xs generalizing s with
  | nil => rfl
  | cons x xs ih =>
    simp only [List.cons_append, foldRes_cons]
    cases f s x with
    | ok a => exact ih a
    | throw m => rfl
    | ub w => rfl

end Verif
