import Verif.Par.Code
import Verif.Par.Region
import Verif.Num.Annulus

/-!
# What the thread programs do when they run alone
-/

namespace Verif.Par
open Verif Res

variable {α β σ : Type}

theorem run_ret (r : Res α) (m : Cell → ℝ) : run (.ret r : CProg α) m = (r, m) := rfl
theorem run_rd_bind (l : Cell) (f : ℝ → CProg β) (m : Cell → ℝ) : run (Prog.rdP l >>= f) m = run (f (m l)) m := rfl
theorem run_wr_bind (l : Cell) (v : ℝ) (f : Unit → CProg β) (m : Cell → ℝ) :
    run (Prog.wrP l v >>= f) m = run (f ()) (Function.update m l v) := by
  show run (Prog.bind _ _) m = _
  simp only [Prog.wrP, Prog.bind, run]
  congr!
theorem run_wr (l : Cell) (v : ℝ) (m : Cell → ℝ) : run (Prog.wrP l v : CProg Unit) m = (ok (), Function.update m l v) := by
  simp only [Prog.wrP, run]
  congr!
theorem run_lift_ok {r : Res α} {a : α} (h : r = ok a) (f : α → CProg β) (m : Cell → ℝ) :
    run (Prog.lift r >>= f) m = run (f a) m := by subst h; rfl

/-! ## cubes in memory -/

/-- real or imaginary part -/
def part (z : ℂ) (im : Bool) : ℝ := if im then z.im else z.re

/-- The cube `a` as it stands in memory. -/
def cube (D : Dims) (m : Cell → ℝ) (a : Arr) : Num.A3 ℂ := ⟨D.n1, D.n2, D.n3, fun i j k => ⟨m (.cub a i j k false), m (.cub a i j k true)⟩⟩

/-- Memory with cube `a` replaced. -/
def put (m : Cell → ℝ) (a : Arr) (C : Num.A3 ℂ) : Cell → ℝ
  | .cub a' i j k im => if a' = a then part (C.val i j k) im else m (.cub a' i j k im)
  | l => m l

theorem cube_put {D : Dims} {C : Num.A3 ℂ} (h : C.n1 = D.n1 ∧ C.n2 = D.n2 ∧ C.n3 = D.n3) (m : Cell → ℝ) (a : Arr) : cube D (put m a C) a = C := by
  obtain ⟨n1, n2, n3, v⟩ := C
  obtain ⟨h1, h2, h3⟩ := h
  dsimp only at h1 h2 h3
  subst h1 h2 h3
  unfold cube put part
  simp

theorem cube_put_ne {D : Dims} {C : Num.A3 ℂ} (m : Cell → ℝ) {a b : Arr} (h : b ≠ a) : cube D (put m a C) b = cube D m b := by
  unfold cube put
  simp [h]

theorem put_put (m : Cell → ℝ) (a : Arr) (C C' : Num.A3 ℂ) : put (put m a C) a C' = put m a C' := by
  funext l
  cases l <;> simp only [put]
  split <;> rfl

theorem put_cube (D : Dims) (m : Cell → ℝ) (a : Arr) : put m a (cube D m a) = m := by
  funext l
  cases l with
  | cub a' i j k im =>
    unfold put cube part
    by_cases h : a' = a
    · subst h; cases im <;> simp
    · simp [h]
  | _ => rfl

theorem cube_in (D : Dims) (m : Cell → ℝ) (a : Arr) (i j k : ℤ) :
    (cube D m a).In i j k ↔ (0 ≤ i ∧ i < D.n1) ∧ (0 ≤ j ∧ j < D.n2) ∧ (0 ≤ k ∧ k < D.n3) := Iff.rfl

theorem elem_ok {D : Dims} {i j k : ℤ} (h : (0 ≤ i ∧ i < D.n1) ∧ (0 ≤ j ∧ j < D.n2) ∧ (0 ≤ k ∧ k < D.n3)) :
    elem D i j k = ok (i.toNat, j.toNat, k.toNat) := if_pos h

theorem put_val (m : Cell → ℝ) (a : Arr) (C : Num.A3 ℂ) (i j k : ℕ) (im : Bool) : put m a C (.cub a i j k im) = part (C.val i j k) im := by
  show (if a = a then _ else _) = _
  rw [if_pos rfl]

/-- two stores to one element -/
theorem store_elem (D : Dims) (m : Cell → ℝ) (a : Arr) (i j k : ℕ) (z : ℂ) :
    Function.update (Function.update m (.cub a i j k false) z.re) (.cub a i j k true) z.im =
      put m a { cube D m a with val := fun i' j' k' => if i' = i ∧ j' = j ∧ k' = k then z else (cube D m a).val i' j' k' } := by
  funext l
  cases l with
  | cub a' i' j' k' im =>
    unfold put cube part
    simp only [Function.update_apply, Cell.cub.injEq]
    by_cases h : a' = a
    · subst h
      by_cases h2 : i' = i ∧ j' = j ∧ k' = k
      · obtain ⟨rfl, rfl, rfl⟩ := h2
        cases im <;> simp
      · have h3 : ∀ b, ¬ (True ∧ i' = i ∧ j' = j ∧ k' = k ∧ im = b) := fun b hb => h2 ⟨hb.2.1, hb.2.2.1, hb.2.2.2.1⟩
        simp only [if_neg (h3 _), if_neg h2, if_true]
        cases im <;> simp
    · simp [h]
  | _ => simp [put, Function.update_apply]

/-! ## programs that act on one cube like a function of the model -/

/-- Under `P`, the program, run alone, returns `r` and changes memory as `f` changes the cube `a`. -/
def Sim (D : Dims) (P : (Cell → ℝ) → Prop) (a : Arr) (p : CProg σ) (r : σ) (f : Num.A3 ℂ → Res (Num.A3 ℂ)) : Prop :=
  ∀ m C', P m → f (cube D m a) = ok C' → (C'.n1 = D.n1 ∧ C'.n2 = D.n2 ∧ C'.n3 = D.n3) ∧ run p m = (ok r, put m a C')

/-- `P` does not look at the cube `a`. -/
def Blind (P : (Cell → ℝ) → Prop) (a : Arr) : Prop := ∀ m C, P m → P (put m a C)

theorem Sim.forL {D : Dims} {P : (Cell → ℝ) → Prop} {a : Arr} (hb : Blind P a) {p : β → σ → CProg σ} {f : β → Num.A3 ℂ → Res (Num.A3 ℂ)} :
    ∀ {xs : List β}, (∀ x ∈ xs, ∀ s, Sim D P a (p x s) s (f x)) → ∀ s, Sim D P a (Prog.forL xs p s) s (Num.forL xs f)
  | [], _, s, m, C', _, h => by
    change ok (cube D m a) = ok C' at h
    injection h with h
    subst h
    exact ⟨⟨rfl, rfl, rfl⟩, by rw [put_cube]; rfl⟩
  | x :: xs, hx, s, m, C', hP, h => by
    change (f x (cube D m a) >>= fun C => Num.forL xs f C) = ok C' at h
    obtain ⟨C1, e1, e2⟩ := bind_eq_ok.mp h
    obtain ⟨d1, r1⟩ := hx x List.mem_cons_self s m C1 hP e1
    have := Sim.forL hb (xs := xs) (fun y hy => hx y (List.mem_cons_of_mem _ hy)) s (put m a C1) C' (hb m C1 hP)
      (by rw [cube_put d1]; exact e2)
    refine ⟨this.1, ?_⟩
    show run (Prog.bind _ _) m = _
    rw [run_bind_ok r1, this.2, put_put]

/-- Sequencing with a rotation etc. -/
theorem Sim.ret {D : Dims} {P : (Cell → ℝ) → Prop} {a : Arr} {p : CProg σ} {r : σ} {f : Num.A3 ℂ → Res (Num.A3 ℂ)}
    (h : Sim D P a p r f) (s : β) : Sim D P a (p >>= fun _ => .ret (ok s)) s f := by
  intro m C' hP e
  obtain ⟨d, r⟩ := h m C' hP e
  exact ⟨d, by rw [run_bind_ok' r]; rfl⟩

theorem upd3_dims {D : Dims} {m : Cell → ℝ} {a : Arr} {i j k : ℤ} {f : ℂ → ℂ} {C' : Num.A3 ℂ}
    (h : Num.upd3 (cube D m a) i j k f = ok C') : ((0 ≤ i ∧ i < D.n1) ∧ (0 ≤ j ∧ j < D.n2) ∧ (0 ≤ k ∧ k < D.n3)) ∧
      (C'.n1 = D.n1 ∧ C'.n2 = D.n2 ∧ C'.n3 = D.n3) ∧
      put m a C' = Function.update (Function.update m (.cub a i.toNat j.toNat k.toNat false) (f ((cube D m a).val i.toNat j.toNat k.toNat)).re)
        (.cub a i.toNat j.toNat k.toNat true) (f ((cube D m a).val i.toNat j.toNat k.toNat)).im := by
  unfold Num.upd3 at h
  split at h
  · rename_i hin
    injection h with h
    refine ⟨hin, by subst h; exact ⟨rfl, rfl, rfl⟩, ?_⟩
    rw [store_elem D]
    subst h
    congr 2
    funext i' j' k'
    split
    · rename_i hh; obtain ⟨rfl, rfl, rfl⟩ := hh; rfl
    · rfl
  · cases h

theorem sim_rot (D : Dims) (P : (Cell → ℝ) → Prop) (a : Arr) (i j k : ℤ) (c s : ℝ) :
    Sim D P a (rotP D a i j k c s) () (fun C => Num.upd3 C i j k (Num.rot c s)) := by
  intro m C' _ h
  obtain ⟨hin, hd, hp⟩ := upd3_dims h
  refine ⟨hd, ?_⟩
  unfold rotP
  rw [run_lift_ok (elem_ok hin), run_rd_bind, run_rd_bind, run_wr_bind, run_wr, hp]
  rfl

theorem sim_inc (D : Dims) (P : (Cell → ℝ) → Prop) (a : Arr) (i j k : ℤ) (x y : ℝ) :
    Sim D P a (incP D a i j k x y) () (fun C => Num.incr C i j k x y) := by
  intro m C' _ h
  obtain ⟨hin, hd, hp⟩ := upd3_dims h
  refine ⟨hd, ?_⟩
  unfold incP
  rw [run_lift_ok (elem_ok hin)]
  unfold addP
  show run (Prog.bind _ _) m = _
  have e1 : ∀ (c : Cell) (v : ℝ) (m : Cell → ℝ), run (do let w ← Prog.rdP c; Prog.wrP c (w + v) : CProg Unit) m =
      (ok (), Function.update m c (m c + v)) := by
    intro c v m
    rw [run_rd_bind, run_wr]
  rw [run_bind_ok (e1 _ _ _), e1, hp, Function.update_of_ne (by simp)]
  rfl

end Verif.Par
