import Verif.Base.Res
import Mathlib.Logic.Function.Basic
import Mathlib.Data.List.Basic
import Mathlib.Tactic.Common
import Mathlib.Tactic.Linarith

/-!
# Two- and three-dimensional arrays (C46)

Models `arr2T` (`levels/cxxsupport/ls_arr.h:350-467`) and `arr3`
(`levels/cxxsupport/ls_arr.h:577-652`).  The one-dimensional member `d` is represented by its
contents (value semantics of `arrT` is C36); memory exhaustion is not modelled here.
Element values are `Option T`, `none` is indeterminate.
-/

namespace Verif.Arr2

open Verif Res

variable {T : Type}

/-- `arr2T` (ls_arr.h:350-354). -/
structure A2 (T : Type) where
  s1 : Nat
  s2 : Nat
  d : List (Option T)

/-- `arrT::alloc` seen from outside (ls_arr.h:219-226). -/
def dAlloc (d : List (Option T)) (sz : Nat) : List (Option T) :=
  if sz = d.length then d else List.replicate sz none

/-- `arr2T()` (ls_arr.h:358). -/
def A2.empty : A2 T := ⟨0, 0, []⟩

/-- `arr2T(sz1, sz2)` (ls_arr.h:360-361). -/
def A2.mk' (sz1 sz2 : Nat) : A2 T := ⟨sz1, sz2, List.replicate (sz1 * sz2) none⟩

/-- `size1/size2/size` (ls_arr.h:374-378). -/
def A2.size (a : A2 T) : Nat := a.s1 * a.s2

/-- `alloc(sz1, sz2)` (ls_arr.h:384-389). -/
def A2.alloc (a : A2 T) (sz1 sz2 : Nat) : A2 T :=
  ⟨sz1, sz2, if sz1 * sz2 ≠ a.d.length then dAlloc a.d (sz1 * sz2) else a.d⟩

/-- `fast_alloc(sz1, sz2)` (ls_arr.h:400-406). -/
def A2.fastAlloc (a : A2 T) (sz1 sz2 : Nat) : A2 T :=
  if sz1 * sz2 ≤ a.d.length then ⟨sz1, sz2, a.d⟩ else a.alloc sz1 sz2

/-- `dealloc()` (ls_arr.h:408). -/
def A2.dealloc (_ : A2 T) : A2 T := ⟨0, 0, []⟩

/-- `fill(val)` (ls_arr.h:411-412). -/
def A2.fill (a : A2 T) (v : T) : Res (A2 T) :=
  forN (a.s1 * a.s2) (fun m (d : List (Option T)) => wr d (m : Int) (some v)) a.d >>= fun d =>
    ok ⟨a.s1, a.s2, d⟩

/-- `scale(val)` (ls_arr.h:415-416) with the multiplication `mul` of `T`; reading an indeterminate
element is allowed and gives an indeterminate element. -/
def A2.scale (a : A2 T) (mul : T → T → T) (v : T) : Res (A2 T) :=
  forN (a.s1 * a.s2) (fun m (d : List (Option T)) =>
    rd d (m : Int) >>= fun x => wr d (m : Int) (x.map fun y => mul y v)) a.d >>= fun d =>
    ok ⟨a.s1, a.s2, d⟩

/-- `operator=` (ls_arr.h:419-425), distinct objects; `d = orig.d` copies all of `orig.d`. -/
def A2.assign (a orig : A2 T) : A2 T :=
  let b := a.alloc orig.s1 orig.s2
  ⟨b.s1, b.s2, orig.d⟩

/-- `operator()(n1, n2)` (ls_arr.h:433-438); `operator[](n1)[n2]` (428-430) is the same address. -/
def A2.get (a : A2 T) (n1 n2 : Nat) : Res (Option T) := rd a.d ((n1 * a.s2 + n2 : Nat) : Int)

/-- `a(n1, n2) = v`. -/
def A2.set (a : A2 T) (n1 n2 : Nat) (v : T) : Res (A2 T) :=
  wr a.d ((n1 * a.s2 + n2 : Nat) : Int) (some v) >>= fun d => ok ⟨a.s1, a.s2, d⟩

/-- Statements on named `arr2` objects. -/
inductive Op (T : Type) where
  | ctor (i sz1 sz2 : Nat)
  | alloc (i sz1 sz2 : Nat)
  | fastAlloc (i sz1 sz2 : Nat)
  | dealloc (i : Nat)
  | fill (i : Nat) (v : T)
  | scale (i : Nat) (v : T)
  | assign (i j : Nat)
  | swap (i j : Nat)
  | set (i n1 n2 : Nat) (v : T)

abbrev Env (T : Type) := Nat → A2 T

def step (mul : T → T → T) (e : Env T) : Op T → Res (Env T)
  | .ctor i sz1 sz2 => ok (Function.update e i (A2.mk' sz1 sz2))
  | .alloc i sz1 sz2 => ok (Function.update e i ((e i).alloc sz1 sz2))
  | .fastAlloc i sz1 sz2 => ok (Function.update e i ((e i).fastAlloc sz1 sz2))
  | .dealloc i => ok (Function.update e i (e i).dealloc)
  | .fill i v => (e i).fill v >>= fun a => ok (Function.update e i a)
  | .scale i v => (e i).scale mul v >>= fun a => ok (Function.update e i a)
  | .assign i j => ok (if i = j then e else Function.update e i ((e i).assign (e j)))
  | .swap i j => ok (Function.update (Function.update e i (e j)) j (e i))
  | .set i n1 n2 v => (e i).set n1 n2 v >>= fun a => ok (Function.update e i a)

/-- The only precondition: indices are inside the dimensions reported by the object. -/
def Legal (e : Env T) : Op T → Prop
  | .set i n1 n2 _ => n1 < (e i).s1 ∧ n2 < (e i).s2
  | _ => True

inductive Reach (mul : T → T → T) : Env T → Prop where
  | init : Reach mul fun _ => A2.empty
  | step {e e' : Env T} (op : Op T) : Reach mul e → Legal e op → step mul e op = ok e' →
      Reach mul e'

def A2.Inv (a : A2 T) : Prop := a.s1 * a.s2 ≤ a.d.length

theorem addr_lt {n1 n2 s1 s2 : Nat} (h1 : n1 < s1) (h2 : n2 < s2) : n1 * s2 + n2 < s1 * s2 := by
  have : (n1 + 1) * s2 ≤ s1 * s2 := Nat.mul_le_mul_right _ h1
  rw [Nat.add_mul, Nat.one_mul] at this
  omega

theorem addr_inj {n1 n2 m1 m2 s2 : Nat} (h2 : n2 < s2) (k2 : m2 < s2)
    (h : n1 * s2 + n2 = m1 * s2 + m2) : n1 = m1 ∧ n2 = m2 := by
  have e1 : (n1 * s2 + n2) / s2 = n1 := by
    rw [Nat.add_comm, Nat.add_mul_div_right _ _ (by omega), Nat.div_eq_of_lt h2, Nat.zero_add]
  have e2 : (m1 * s2 + m2) / s2 = m1 := by
    rw [Nat.add_comm, Nat.add_mul_div_right _ _ (by omega), Nat.div_eq_of_lt k2, Nat.zero_add]
  have : n1 = m1 := by rw [← e1, h, e2]
  subst this
  exact ⟨rfl, by omega⟩

theorem fill_loop (v : T) (d : List (Option T)) :
    ∀ n, n ≤ d.length →
    forN n (fun m (d : List (Option T)) => wr d (m : Int) (some v)) d =
      ok (List.replicate n (some v) ++ d.drop n)
  | 0, _ => by simp
  | n + 1, h => by
    rw [forN_succ, fill_loop v d n (by omega), ok_bind, wr_nat _ (by simp; omega)]
    congr 1
    apply List.ext_getElem?
    intro m
    rw [List.getElem?_set]
    by_cases hm : n = m
    · subst hm
      rw [if_pos rfl, if_pos (by simp; omega), List.getElem?_append_left (by simp)]
      simp
    · rw [if_neg hm]
      simp only [List.getElem?_append, List.length_replicate, List.getElem?_replicate,
        List.getElem?_drop]
      by_cases h2 : m < n
      · simp [h2, Nat.lt_succ_of_lt h2]
      · rw [if_neg h2, if_neg (by omega)]; congr 1; omega

theorem scale_loop (mul : T → T → T) (v : T) (d : List (Option T)) :
    ∀ n, n ≤ d.length →
    forN n (fun m (d : List (Option T)) =>
      rd d (m : Int) >>= fun x => wr d (m : Int) (x.map fun y => mul y v)) d =
      ok ((d.take n).map (fun x => x.map fun y => mul y v) ++ d.drop n)
  | 0, _ => by simp
  | n + 1, h => by
    have hl : n < ((d.take n).map (fun x => x.map fun y => mul y v) ++ d.drop n).length := by
      simp; omega
    rw [forN_succ, scale_loop mul v d n (by omega), ok_bind, rd_nat hl, ok_bind, wr_nat _ hl]
    congr 1
    apply List.ext_getElem?
    intro m
    rw [List.getElem?_set]
    by_cases hm : n = m
    · subst hm
      rw [if_pos rfl, if_pos hl, List.getElem_append_right (by simp),
        List.getElem?_append_left (by simp; omega)]
      simp [List.getElem?_take, show n < d.length by omega, Nat.min_eq_left (show n ≤ d.length by omega)]
    · rw [if_neg hm]
      simp only [List.getElem?_append, List.length_map, List.length_take, List.getElem?_map,
        List.getElem?_take, List.getElem?_drop]
      rw [Nat.min_eq_left (by omega), Nat.min_eq_left (by omega)]
      by_cases h2 : m < n
      · simp [h2, Nat.lt_succ_of_lt h2]
      · rw [if_neg h2, if_neg (by omega)]; congr 1; omega

theorem inv_alloc (a : A2 T) (sz1 sz2 : Nat) : (a.alloc sz1 sz2).d.length = sz1 * sz2 := by
  unfold A2.alloc dAlloc
  dsimp only
  split
  · simp
  · rename_i h; omega

theorem A2.inv_fastAlloc (a : A2 T) (sz1 sz2 : Nat) : (a.fastAlloc sz1 sz2).Inv := by
  unfold A2.fastAlloc
  split
  · assumption
  · unfold A2.Inv; rw [inv_alloc]; exact Nat.le_refl _

theorem step_ok (mul : T → T → T) {e : Env T} (h : ∀ i, (e i).Inv) (op : Op T)
    (hl : Legal e op) : ∃ e', step mul e op = ok e' ∧ ∀ i, (e' i).Inv := by
  have upd : ∀ (i : Nat) (a : A2 T), a.Inv → ∀ k, (Function.update e i a k).Inv := by
    intro i a ha k
    by_cases hk : k = i
    · subst hk; rw [Function.update_self]; exact ha
    · rw [Function.update_of_ne hk]; exact h k
  cases op with
  | ctor i sz1 sz2 => exact ⟨_, rfl, upd i _ (by simp [A2.Inv, A2.mk'])⟩
  | alloc i sz1 sz2 =>
    exact ⟨_, rfl, upd i _ (by unfold A2.Inv; rw [inv_alloc]; exact Nat.le_refl _)⟩
  | fastAlloc i sz1 sz2 => exact ⟨_, rfl, upd i _ (A2.inv_fastAlloc _ _ _)⟩
  | dealloc i => exact ⟨_, rfl, upd i _ (by simp [A2.Inv, A2.dealloc])⟩
  | fill i v =>
    refine ⟨_, ?_, upd i ⟨(e i).s1, (e i).s2, List.replicate ((e i).s1 * (e i).s2) (some v) ++
      (e i).d.drop ((e i).s1 * (e i).s2)⟩ ?_⟩
    · simp only [step, A2.fill]
      rw [fill_loop v _ _ (h i)]; rfl
    · have := h i; unfold A2.Inv at this ⊢; simp
  | scale i v =>
    refine ⟨_, ?_, upd i ⟨(e i).s1, (e i).s2,
      ((e i).d.take ((e i).s1 * (e i).s2)).map (fun x => x.map fun y => mul y v) ++
        (e i).d.drop ((e i).s1 * (e i).s2)⟩ ?_⟩
    · simp only [step, A2.scale]
      rw [scale_loop mul v _ _ (h i)]; rfl
    · have := h i; unfold A2.Inv at this ⊢; simp; omega
  | assign i j =>
    refine ⟨_, rfl, ?_⟩
    split
    · exact h
    · exact upd i _ (h j)
  | swap i j =>
    refine ⟨_, rfl, fun k => ?_⟩
    by_cases hk : k = j
    · subst hk; rw [Function.update_self]; exact h i
    · rw [Function.update_of_ne hk]; exact upd i _ (h j) k
  | set i n1 n2 v =>
    have hlt := addr_lt hl.1 hl.2
    have := h i
    unfold A2.Inv at this
    refine ⟨_, ?_, upd i ⟨(e i).s1, (e i).s2, (e i).d.set (n1 * (e i).s2 + n2) (some v)⟩ ?_⟩
    · simp only [step, A2.set]
      rw [wr_nat _ (by omega)]; rfl
    · unfold A2.Inv; simpa using this

theorem reach_inv (mul : T → T → T) {e : Env T} (h : Reach mul e) : ∀ i, (e i).Inv := by
  induction h with
  | init => intro i; simp [A2.Inv, A2.empty]
  | step op _ hl hs ih =>
    obtain ⟨e'', h1, h2⟩ := step_ok mul ih op hl
    rw [hs] at h1; cases h1; exact h2

/-- **C46** (two dimensions).  After every history of constructions, `alloc`, `fast_alloc`, `fill`,
`scale`, assignment, `swap` and element writes on any number of arrays, no statement touches memory
outside its array; every element `(n1,n2)` with `n1 < size1()`, `n2 < size2()` can be written and
read back, writing it changes no other element and no dimension, and the addresses of the elements
are exactly the numbers below `size()`. -/
theorem C46_arr2 (mul : T → T → T) {e : Env T} (h : Reach mul e) :
    (∀ op, Legal e op → ∃ e', step mul e op = ok e') ∧
    (∀ i n1 n2 v, n1 < (e i).s1 → n2 < (e i).s2 →
      ∃ a, (e i).set n1 n2 v = ok a ∧ a.s1 = (e i).s1 ∧ a.s2 = (e i).s2 ∧
        a.get n1 n2 = ok (some v) ∧
        ∀ m1 m2, m1 < (e i).s1 → m2 < (e i).s2 → (m1, m2) ≠ (n1, n2) →
          a.get m1 m2 = (e i).get m1 m2 ∧ ∃ x, a.get m1 m2 = ok x) ∧
    (∀ i k, k < (e i).size ↔
      ∃ n1 n2, n1 < (e i).s1 ∧ n2 < (e i).s2 ∧ k = n1 * (e i).s2 + n2) := by
  have hinv := reach_inv mul h
  refine ⟨fun op hl => ?_, ?_, ?_⟩
  · obtain ⟨e', h1, -⟩ := step_ok mul hinv op hl; exact ⟨e', h1⟩
  · intro i n1 n2 v h1 h2
    have hlt := addr_lt h1 h2
    have hi := hinv i
    unfold A2.Inv at hi
    refine ⟨⟨(e i).s1, (e i).s2, (e i).d.set (n1 * (e i).s2 + n2) (some v)⟩, ?_, rfl, rfl, ?_, ?_⟩
    · unfold A2.set; rw [wr_nat _ (by omega)]; rfl
    · unfold A2.get; rw [rd_nat (by simp; omega)]; simp
    · intro m1 m2 k1 k2 hne
      have hlt' := addr_lt k1 k2
      have hna : n1 * (e i).s2 + n2 ≠ m1 * (e i).s2 + m2 := by
        intro he
        obtain ⟨a1, a2⟩ := addr_inj h2 k2 he
        exact hne (by rw [a1, a2])
      unfold A2.get
      dsimp only
      rw [rd_nat (by simp; omega), rd_nat (by omega), List.getElem_set_ne hna]
      exact ⟨rfl, _, rfl⟩
  · intro i k
    unfold A2.size
    constructor
    · intro hk
      have h2 : 0 < (e i).s2 := by
        rcases Nat.eq_zero_or_pos (e i).s2 with h0 | h0
        · rw [h0] at hk; omega
        · exact h0
      refine ⟨k / (e i).s2, k % (e i).s2, ?_, Nat.mod_lt _ h2, ?_⟩
      · exact Nat.div_lt_of_lt_mul (by rw [Nat.mul_comm]; exact hk)
      · rw [Nat.mul_comm]; exact (Nat.div_add_mod _ _).symm
    · rintro ⟨n1, n2, h1, h2, rfl⟩; exact addr_lt h1 h2

/-- What `fill` and `scale` do to the elements. -/
theorem C46_arr2_fill_scale (mul : T → T → T) {e : Env T} (h : Reach mul e) (i : Nat) (v : T) :
    (∃ a, (e i).fill v = ok a ∧ ∀ n1 n2, n1 < (e i).s1 → n2 < (e i).s2 →
      a.get n1 n2 = ok (some v)) ∧
    (∃ a, (e i).scale mul v = ok a ∧ ∀ n1 n2, n1 < (e i).s1 → n2 < (e i).s2 →
      ∃ x, (e i).get n1 n2 = ok x ∧ a.get n1 n2 = ok (x.map fun y => mul y v)) := by
  have hi := reach_inv mul h i
  unfold A2.Inv at hi
  constructor
  · refine ⟨_, by unfold A2.fill; rw [fill_loop v _ _ hi]; rfl, fun n1 n2 h1 h2 => ?_⟩
    have hlt := addr_lt h1 h2
    unfold A2.get
    rw [rd_nat (by simp; omega), List.getElem_append_left (by simpa using hlt)]
    simp
  · refine ⟨_, by unfold A2.scale; rw [scale_loop mul v _ _ hi]; rfl, fun n1 n2 h1 h2 => ?_⟩
    have hlt := addr_lt h1 h2
    refine ⟨(e i).d[n1 * (e i).s2 + n2]'(by omega), ?_, ?_⟩
    · unfold A2.get; rw [rd_nat (by omega)]
    · unfold A2.get
      rw [rd_nat (by simp; omega), List.getElem_append_left (by simp; omega)]
      simp

/-- Object `i` becomes `a`, all others are untouched. -/
def Only {α : Type} (i : Nat) (e e' : Nat → α) : Prop := ∀ k, k ≠ i → e' k = e k

/-- What a user expects of each statement, in terms of the dimensions and the elements `(n1,n2)` (the contents after
construction and `alloc` are unspecified). -/
def Effect2 (mul : T → T → T) (e e' : Env T) : Op T → Prop
  | .ctor i z1 z2 | .alloc i z1 z2 | .fastAlloc i z1 z2 => Only i e e' ∧ (e' i).s1 = z1 ∧ (e' i).s2 = z2
  | .dealloc i => Only i e e' ∧ (e' i).s1 = 0 ∧ (e' i).s2 = 0
  | .fill i v => Only i e e' ∧ (e' i).s1 = (e i).s1 ∧ (e' i).s2 = (e i).s2 ∧
      ∀ n1 n2, n1 < (e i).s1 → n2 < (e i).s2 → (e' i).get n1 n2 = ok (some v)
  | .scale i v => Only i e e' ∧ (e' i).s1 = (e i).s1 ∧ (e' i).s2 = (e i).s2 ∧
      ∀ n1 n2, n1 < (e i).s1 → n2 < (e i).s2 →
        ∃ x, (e i).get n1 n2 = ok x ∧ (e' i).get n1 n2 = ok (x.map fun y => mul y v)
  | .assign i j => Only i e e' ∧ (e' i).s1 = (e j).s1 ∧ (e' i).s2 = (e j).s2 ∧
      ∀ n1 n2, n1 < (e j).s1 → n2 < (e j).s2 → (e' i).get n1 n2 = (e j).get n1 n2
  | .swap i j => (∀ k, k ≠ i → k ≠ j → e' k = e k) ∧
      ((e' i).s1 = (e j).s1 ∧ (e' i).s2 = (e j).s2 ∧ ∀ n1 n2, (e' i).get n1 n2 = (e j).get n1 n2) ∧
      ((e' j).s1 = (e i).s1 ∧ (e' j).s2 = (e i).s2 ∧ ∀ n1 n2, (e' j).get n1 n2 = (e i).get n1 n2)
  | .set i n1 n2 v => Only i e e' ∧ (e' i).s1 = (e i).s1 ∧ (e' i).s2 = (e i).s2 ∧
      (e' i).get n1 n2 = ok (some v) ∧
      ∀ m1 m2, m1 < (e i).s1 → m2 < (e i).s2 → (m1, m2) ≠ (n1, n2) → (e' i).get m1 m2 = (e i).get m1 m2

/-- **C46** (two dimensions): after every history, every legal statement has exactly the effect a user expects. -/
theorem C46_arr2_effect (mul : T → T → T) {e : Env T} (h : Reach mul e) (op : Op T) (hl : Legal e op) :
    ∃ e', step mul e op = ok e' ∧ Effect2 mul e e' op := by
  have only : ∀ (i : Nat) (a : A2 T), Only i e (Function.update e i a) := fun i a k hk => Function.update_of_ne hk _ _
  cases op with
  | ctor i z1 z2 => exact ⟨_, rfl, only i _, by rw [Function.update_self]; exact ⟨rfl, rfl⟩⟩
  | alloc i z1 z2 => exact ⟨_, rfl, only i _, by rw [Function.update_self]; exact ⟨rfl, rfl⟩⟩
  | fastAlloc i z1 z2 =>
    refine ⟨_, rfl, only i _, ?_⟩
    rw [Function.update_self]
    unfold A2.fastAlloc
    split <;> exact ⟨rfl, rfl⟩
  | dealloc i => exact ⟨_, rfl, only i _, by rw [Function.update_self]; exact ⟨rfl, rfl⟩⟩
  | fill i v =>
    obtain ⟨⟨a, h1, h2⟩, -⟩ := C46_arr2_fill_scale mul h i v
    refine ⟨_, by simp only [step, h1]; rfl, only i a, ?_⟩
    rw [Function.update_self]
    unfold A2.fill at h1
    obtain ⟨d, -, h3⟩ := bind_eq_ok.mp h1
    injection h3 with h3
    exact ⟨by rw [← h3], by rw [← h3], h2⟩
  | scale i v =>
    obtain ⟨-, a, h1, h2⟩ := C46_arr2_fill_scale mul h i v
    refine ⟨_, by simp only [step, h1]; rfl, only i a, ?_⟩
    rw [Function.update_self]
    unfold A2.scale at h1
    obtain ⟨d, -, h3⟩ := bind_eq_ok.mp h1
    injection h3 with h3
    exact ⟨by rw [← h3], by rw [← h3], h2⟩
  | assign i j =>
    refine ⟨_, rfl, ?_⟩
    by_cases hij : i = j
    · subst hij
      rw [if_pos rfl]
      exact ⟨fun k _ => rfl, rfl, rfl, fun _ _ _ _ => rfl⟩
    · rw [if_neg hij]
      refine ⟨only i _, ?_⟩
      rw [Function.update_self]
      exact ⟨rfl, rfl, fun _ _ _ _ => rfl⟩
  | swap i j =>
    refine ⟨_, rfl, fun k h1 h2 => by rw [Function.update_of_ne h2, Function.update_of_ne h1], ?_, ?_⟩
    · have : Function.update (Function.update e i (e j)) j (e i) i = e j := by
        by_cases hij : i = j
        · subst hij; rw [Function.update_self]
        · rw [Function.update_of_ne hij, Function.update_self]
      rw [this]; exact ⟨rfl, rfl, fun _ _ => rfl⟩
    · rw [Function.update_self]; exact ⟨rfl, rfl, fun _ _ => rfl⟩
  | set i n1 n2 v =>
    obtain ⟨a, h1, h2, h3, h4, h5⟩ := (C46_arr2 mul h).2.1 i n1 n2 v hl.1 hl.2
    refine ⟨_, by simp only [step, h1]; rfl, only i a, ?_⟩
    rw [Function.update_self]
    exact ⟨h2, h3, h4, fun m1 m2 k1 k2 hne => (h5 m1 m2 k1 k2 hne).1⟩

/-- A reachable non-trivial state: a 4×5 array re-used by `fast_alloc` as 2×3. -/
example : ∃ e : Env Nat, Reach (· * ·) e ∧ (e 0).s1 = 2 ∧ (e 0).s2 = 3 ∧ (e 0).d.length = 20 :=
  ⟨_, .step (.fastAlloc 0 2 3) (.step (.ctor 0 4 5) .init trivial rfl) trivial rfl,
    by simp [A2.fastAlloc, A2.mk']⟩

/-! ## Three dimensions -/

/-- `arr3` (ls_arr.h:577-581). -/
structure A3 (T : Type) where
  s1 : Nat
  s2 : Nat
  s3 : Nat
  s2s3 : Nat
  d : List (Option T)

/-- `arr3()` (ls_arr.h:585). -/
def A3.empty : A3 T := ⟨0, 0, 0, 0, []⟩
/-- `arr3(sz1, sz2, sz3)` (ls_arr.h:587-588). -/
def A3.mk' (sz1 sz2 sz3 : Nat) : A3 T :=
  ⟨sz1, sz2, sz3, sz2 * sz3, List.replicate (sz1 * sz2 * sz3) none⟩
/-- `size()` (ls_arr.h:602). -/
def A3.size (a : A3 T) : Nat := a.s1 * a.s2 * a.s3
/-- `alloc(sz1, sz2, sz3)` (ls_arr.h:606-610). -/
def A3.alloc (a : A3 T) (sz1 sz2 sz3 : Nat) : A3 T :=
  ⟨sz1, sz2, sz3, sz2 * sz3, dAlloc a.d (sz1 * sz2 * sz3)⟩
/-- `dealloc()` (ls_arr.h:612). -/
def A3.dealloc (_ : A3 T) : A3 T := ⟨0, 0, 0, 0, []⟩
/-- `fill(val)` (ls_arr.h:615-616). -/
def A3.fill (a : A3 T) (v : T) : A3 T := { a with d := List.replicate a.d.length (some v) }
/-- `operator=` (ls_arr.h:619-625). -/
def A3.assign (a orig : A3 T) : A3 T :=
  let b := a.alloc orig.s1 orig.s2 orig.s3
  { b with d := orig.d }
/-- `operator()(n1,n2,n3)` (ls_arr.h:629-636). -/
def A3.get (a : A3 T) (n1 n2 n3 : Nat) : Res (Option T) :=
  rd a.d ((n1 * a.s2s3 + n2 * a.s3 + n3 : Nat) : Int)
def A3.set (a : A3 T) (n1 n2 n3 : Nat) (v : T) : Res (A3 T) :=
  wr a.d ((n1 * a.s2s3 + n2 * a.s3 + n3 : Nat) : Int) (some v) >>= fun d => ok { a with d := d }

inductive Op3 (T : Type) where
  | ctor (i sz1 sz2 sz3 : Nat)
  | alloc (i sz1 sz2 sz3 : Nat)
  | dealloc (i : Nat)
  | fill (i : Nat) (v : T)
  | assign (i j : Nat)
  | swap (i j : Nat)
  | set (i n1 n2 n3 : Nat) (v : T)

abbrev Env3 (T : Type) := Nat → A3 T

/-- `swap` (ls_arr.h:639-646) exchanges all members. -/
def step3 (e : Env3 T) : Op3 T → Res (Env3 T)
  | .ctor i sz1 sz2 sz3 => ok (Function.update e i (A3.mk' sz1 sz2 sz3))
  | .alloc i sz1 sz2 sz3 => ok (Function.update e i ((e i).alloc sz1 sz2 sz3))
  | .dealloc i => ok (Function.update e i (e i).dealloc)
  | .fill i v => ok (Function.update e i ((e i).fill v))
  | .assign i j => ok (if i = j then e else Function.update e i ((e i).assign (e j)))
  | .swap i j => ok (Function.update (Function.update e i (e j)) j (e i))
  | .set i n1 n2 n3 v => (e i).set n1 n2 n3 v >>= fun a => ok (Function.update e i a)

def Legal3 (e : Env3 T) : Op3 T → Prop
  | .set i n1 n2 n3 _ => n1 < (e i).s1 ∧ n2 < (e i).s2 ∧ n3 < (e i).s3
  | _ => True

inductive Reach3 : Env3 T → Prop where
  | init : Reach3 fun _ => A3.empty
  | step {e e' : Env3 T} (op : Op3 T) : Reach3 e → Legal3 e op → step3 e op = ok e' → Reach3 e'

def A3.Inv (a : A3 T) : Prop := a.s2s3 = a.s2 * a.s3 ∧ a.d.length = a.s1 * a.s2 * a.s3

theorem addr3 (a : A3 T) (h : a.Inv) (n1 n2 n3 : Nat) :
    n1 * a.s2s3 + n2 * a.s3 + n3 = (n1 * a.s2 + n2) * a.s3 + n3 := by
  rw [h.1, Nat.add_mul, Nat.mul_assoc]

theorem addr3_lt {a : A3 T} (h : a.Inv) {n1 n2 n3 : Nat} (h1 : n1 < a.s1) (h2 : n2 < a.s2)
    (h3 : n3 < a.s3) : n1 * a.s2s3 + n2 * a.s3 + n3 < a.d.length := by
  rw [addr3 a h, h.2]
  exact addr_lt (addr_lt h1 h2) h3

theorem dAlloc_length (d : List (Option T)) (n : Nat) : (dAlloc d n).length = n := by
  unfold dAlloc; split <;> simp_all

theorem step3_ok {e : Env3 T} (h : ∀ i, (e i).Inv) (op : Op3 T) (hl : Legal3 e op) :
    ∃ e', step3 e op = ok e' ∧ ∀ i, (e' i).Inv := by
  have upd : ∀ (i : Nat) (a : A3 T), a.Inv → ∀ k, (Function.update e i a k).Inv := by
    intro i a ha k
    by_cases hk : k = i
    · subst hk; rw [Function.update_self]; exact ha
    · rw [Function.update_of_ne hk]; exact h k
  cases op with
  | ctor i sz1 sz2 sz3 => exact ⟨_, rfl, upd i _ ⟨rfl, by simp [A3.mk']⟩⟩
  | alloc i sz1 sz2 sz3 => exact ⟨_, rfl, upd i _ ⟨rfl, by simp [A3.alloc, dAlloc_length]⟩⟩
  | dealloc i => exact ⟨_, rfl, upd i _ ⟨rfl, by simp [A3.dealloc]⟩⟩
  | fill i v => exact ⟨_, rfl, upd i _ ⟨(h i).1, by simpa [A3.fill] using (h i).2⟩⟩
  | assign i j =>
    refine ⟨_, rfl, ?_⟩
    split
    · exact h
    · exact upd i _ ⟨rfl, (h j).2⟩
  | swap i j =>
    refine ⟨_, rfl, fun k => ?_⟩
    by_cases hk : k = j
    · subst hk; rw [Function.update_self]; exact h i
    · rw [Function.update_of_ne hk]; exact upd i _ (h j) k
  | set i n1 n2 n3 v =>
    have hlt := addr3_lt (h i) hl.1 hl.2.1 hl.2.2
    refine ⟨_, ?_, upd i { e i with
        d := (e i).d.set (n1 * (e i).s2s3 + n2 * (e i).s3 + n3) (some v) } ⟨(h i).1, ?_⟩⟩
    · simp only [step3, A3.set]
      rw [wr_nat _ hlt]; rfl
    · simpa using (h i).2

theorem reach3_inv {e : Env3 T} (h : Reach3 e) : ∀ i, (e i).Inv := by
  induction h with
  | init => intro i; exact ⟨rfl, rfl⟩
  | step op _ hl hs ih =>
    obtain ⟨e'', h1, h2⟩ := step3_ok ih op hl
    rw [hs] at h1; cases h1; exact h2

/-- **C46** (three dimensions). -/
theorem C46_arr3 {e : Env3 T} (h : Reach3 e) :
    (∀ op, Legal3 e op → ∃ e', step3 e op = ok e') ∧
    (∀ i n1 n2 n3 v, n1 < (e i).s1 → n2 < (e i).s2 → n3 < (e i).s3 →
      ∃ a, (e i).set n1 n2 n3 v = ok a ∧ a.get n1 n2 n3 = ok (some v) ∧
        ∀ m1 m2 m3, m1 < (e i).s1 → m2 < (e i).s2 → m3 < (e i).s3 →
          (m1, m2, m3) ≠ (n1, n2, n3) →
          a.get m1 m2 m3 = (e i).get m1 m2 m3 ∧ ∃ x, a.get m1 m2 m3 = ok x) ∧
    (∀ i k, k < (e i).size ↔ ∃ n1 n2 n3, n1 < (e i).s1 ∧ n2 < (e i).s2 ∧ n3 < (e i).s3 ∧
      k = n1 * ((e i).s2 * (e i).s3) + n2 * (e i).s3 + n3) := by
  have hinv := reach3_inv h
  refine ⟨fun op hl => ?_, ?_, ?_⟩
  · obtain ⟨e', h1, -⟩ := step3_ok hinv op hl; exact ⟨e', h1⟩
  · intro i n1 n2 n3 v h1 h2 h3
    have hlt := addr3_lt (hinv i) h1 h2 h3
    refine ⟨{ e i with d := (e i).d.set (n1 * (e i).s2s3 + n2 * (e i).s3 + n3) (some v) },
      ?_, ?_, ?_⟩
    · unfold A3.set; rw [wr_nat _ hlt]; rfl
    · unfold A3.get; rw [rd_nat (by simpa using hlt)]; simp
    · intro m1 m2 m3 k1 k2 k3 hne
      have hlt' := addr3_lt (hinv i) k1 k2 k3
      have hna : n1 * (e i).s2s3 + n2 * (e i).s3 + n3 ≠ m1 * (e i).s2s3 + m2 * (e i).s3 + m3 := by
        rw [addr3 _ (hinv i), addr3 _ (hinv i)]
        intro he
        obtain ⟨a1, a2⟩ := addr_inj h3 k3 he
        obtain ⟨b1, b2⟩ := addr_inj h2 k2 a1
        exact hne (by rw [a2, b1, b2])
      unfold A3.get
      dsimp only
      rw [rd_nat (by simpa using hlt'), rd_nat hlt', List.getElem_set_ne hna]
      exact ⟨rfl, _, rfl⟩
  · intro i k
    unfold A3.size
    constructor
    · intro hk
      have h3 : 0 < (e i).s3 := by
        rcases Nat.eq_zero_or_pos (e i).s3 with h0 | h0
        · rw [h0] at hk; omega
        · exact h0
      have hq : k / (e i).s3 < (e i).s1 * (e i).s2 :=
        Nat.div_lt_of_lt_mul (by rw [Nat.mul_comm]; exact hk)
      have h2 : 0 < (e i).s2 := by
        rcases Nat.eq_zero_or_pos (e i).s2 with h0 | h0
        · rw [h0, Nat.mul_zero] at hq; exact absurd hq (Nat.not_lt_zero _)
        · exact h0
      refine ⟨k / (e i).s3 / (e i).s2, k / (e i).s3 % (e i).s2, k % (e i).s3, ?_,
        Nat.mod_lt _ h2, Nat.mod_lt _ h3, ?_⟩
      · exact Nat.div_lt_of_lt_mul (by rw [Nat.mul_comm]; exact hq)
      · rw [← Nat.mul_assoc, ← Nat.add_mul]
        have := Nat.div_add_mod (k / (e i).s3) (e i).s2
        rw [Nat.mul_comm] at this
        rw [this, Nat.mul_comm]
        exact (Nat.div_add_mod _ _).symm
    · rintro ⟨n1, n2, n3, h1, h2, h3, rfl⟩
      rw [← Nat.mul_assoc, ← Nat.add_mul]
      exact addr_lt (addr_lt h1 h2) h3

/-- What a user expects of each statement on three-dimensional arrays. -/
def Effect3 (e e' : Env3 T) : Op3 T → Prop
  | .ctor i z1 z2 z3 | .alloc i z1 z2 z3 => Only i e e' ∧ (e' i).s1 = z1 ∧ (e' i).s2 = z2 ∧ (e' i).s3 = z3
  | .dealloc i => Only i e e' ∧ (e' i).s1 = 0 ∧ (e' i).s2 = 0 ∧ (e' i).s3 = 0
  | .fill i v => Only i e e' ∧ (e' i).s1 = (e i).s1 ∧ (e' i).s2 = (e i).s2 ∧ (e' i).s3 = (e i).s3 ∧
      ∀ n1 n2 n3, n1 < (e i).s1 → n2 < (e i).s2 → n3 < (e i).s3 → (e' i).get n1 n2 n3 = ok (some v)
  | .assign i j => Only i e e' ∧ (e' i).s1 = (e j).s1 ∧ (e' i).s2 = (e j).s2 ∧ (e' i).s3 = (e j).s3 ∧
      ∀ n1 n2 n3, n1 < (e j).s1 → n2 < (e j).s2 → n3 < (e j).s3 → (e' i).get n1 n2 n3 = (e j).get n1 n2 n3
  | .swap i j => (∀ k, k ≠ i → k ≠ j → e' k = e k) ∧
      ((e' i).s1 = (e j).s1 ∧ (e' i).s2 = (e j).s2 ∧ (e' i).s3 = (e j).s3 ∧
        ∀ n1 n2 n3, (e' i).get n1 n2 n3 = (e j).get n1 n2 n3) ∧
      ((e' j).s1 = (e i).s1 ∧ (e' j).s2 = (e i).s2 ∧ (e' j).s3 = (e i).s3 ∧
        ∀ n1 n2 n3, (e' j).get n1 n2 n3 = (e i).get n1 n2 n3)
  | .set i n1 n2 n3 v => Only i e e' ∧ (e' i).s1 = (e i).s1 ∧ (e' i).s2 = (e i).s2 ∧ (e' i).s3 = (e i).s3 ∧
      (e' i).get n1 n2 n3 = ok (some v) ∧
      ∀ m1 m2 m3, m1 < (e i).s1 → m2 < (e i).s2 → m3 < (e i).s3 → (m1, m2, m3) ≠ (n1, n2, n3) →
        (e' i).get m1 m2 m3 = (e i).get m1 m2 m3

/-- **C46** (three dimensions): after every history, every legal statement has exactly the effect a user expects. -/
theorem C46_arr3_effect {e : Env3 T} (h : Reach3 e) (op : Op3 T) (hl : Legal3 e op) :
    ∃ e', step3 e op = ok e' ∧ Effect3 e e' op := by
  have only : ∀ (i : Nat) (a : A3 T), Only i e (Function.update e i a) := fun i a k hk => Function.update_of_ne hk _ _
  have hinv := reach3_inv h
  cases op with
  | ctor i z1 z2 z3 => exact ⟨_, rfl, only i _, by rw [Function.update_self]; exact ⟨rfl, rfl, rfl⟩⟩
  | alloc i z1 z2 z3 => exact ⟨_, rfl, only i _, by rw [Function.update_self]; exact ⟨rfl, rfl, rfl⟩⟩
  | dealloc i => exact ⟨_, rfl, only i _, by rw [Function.update_self]; exact ⟨rfl, rfl, rfl⟩⟩
  | fill i v =>
    refine ⟨_, rfl, only i _, ?_⟩
    rw [Function.update_self]
    refine ⟨rfl, rfl, rfl, fun n1 n2 n3 h1 h2 h3 => ?_⟩
    have hlt := addr3_lt (hinv i) h1 h2 h3
    unfold A3.get A3.fill
    dsimp only
    rw [rd_nat (by simpa using hlt), List.getElem_replicate]
  | assign i j =>
    refine ⟨_, rfl, ?_⟩
    by_cases hij : i = j
    · subst hij
      rw [if_pos rfl]
      exact ⟨fun k _ => rfl, rfl, rfl, rfl, fun _ _ _ _ _ _ => rfl⟩
    · rw [if_neg hij]
      refine ⟨only i _, ?_⟩
      rw [Function.update_self]
      refine ⟨rfl, rfl, rfl, fun n1 n2 n3 _ _ _ => ?_⟩
      unfold A3.get A3.assign A3.alloc
      rw [(hinv j).1]
  | swap i j =>
    refine ⟨_, rfl, fun k h1 h2 => by rw [Function.update_of_ne h2, Function.update_of_ne h1], ?_, ?_⟩
    · have : Function.update (Function.update e i (e j)) j (e i) i = e j := by
        by_cases hij : i = j
        · subst hij; rw [Function.update_self]
        · rw [Function.update_of_ne hij, Function.update_self]
      rw [this]; exact ⟨rfl, rfl, rfl, fun _ _ _ => rfl⟩
    · rw [Function.update_self]; exact ⟨rfl, rfl, rfl, fun _ _ _ => rfl⟩
  | set i n1 n2 n3 v =>
    obtain ⟨a, h1, h4, h5⟩ := (C46_arr3 h).2.1 i n1 n2 n3 v hl.1 hl.2.1 hl.2.2
    refine ⟨_, by simp only [step3, h1]; rfl, only i a, ?_⟩
    rw [Function.update_self]
    unfold A3.set at h1
    obtain ⟨d, -, h3⟩ := bind_eq_ok.mp h1
    injection h3 with h3
    exact ⟨by rw [← h3], by rw [← h3], by rw [← h3], h4, fun m1 m2 m3 k1 k2 k3 hne => (h5 m1 m2 m3 k1 k2 k3 hne).1⟩

example : ∃ e : Env3 Nat, Reach3 e ∧ (e 1).s1 = 2 ∧ (e 1).s2 = 3 ∧ (e 1).s3 = 4 :=
  ⟨_, .step (.assign 1 0) (.step (.ctor 0 2 3 4) .init trivial rfl) trivial rfl,
    by simp [A3.assign, A3.mk', A3.alloc]⟩

end Verif.Arr2
