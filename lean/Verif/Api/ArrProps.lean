import Verif.Api.Arr
import Mathlib.Tactic.Common

/-!
# Ownership and value semantics of `arrT` (C36)
-/

namespace Verif.Arr

variable {T : Type}

/-! ## Specification -/

/-- What the user of the container sees: for each name, no object, or an object with a list of
elements (`none` elements are indeterminate). -/
abbrev Vals (T : Type) := Nat → Option (List (Option T))

/-- The value of an object, as a list. -/
def vat (v : Vals T) (i : Nat) : List (Option T) := (v i).getD []

/-- Does the statement request memory from the allocator? -/
def requests (v : Vals T) : Op T → Bool
  | .ctor _ _ sz => decide (sz ≠ 0)
  | .ctorFill _ _ sz _ => decide (sz ≠ 0)
  | .ctorCopy _ _ j => decide ((vat v j).length ≠ 0)
  | .alloc _ i sz => decide (sz ≠ 0 ∧ sz ≠ (vat v i).length)
  | .allocAndFill _ i sz _ => decide (sz ≠ 0 ∧ sz ≠ (vat v i).length)
  | .resize _ i sz => decide (sz ≠ 0 ∧ sz ≠ (vat v i).length)
  | .assign _ i j =>
    decide (i ≠ j ∧ (vat v j).length ≠ 0 ∧ (vat v j).length ≠ (vat v i).length)
  | .copyFrom _ i xs => decide (xs.length ≠ 0 ∧ xs.length ≠ (vat v i).length)
  | _ => false

/-- Does the allocator fail for this statement? -/
def Op.oom : Op T → Bool
  | .ctor o _ _ => o
  | .ctorFill o _ _ _ => o
  | .ctorCopy o _ _ => o
  | .alloc o _ _ => o
  | .allocAndFill o _ _ _ => o
  | .resize o _ _ => o
  | .assign o _ _ => o
  | .copyFrom o _ _ => o
  | _ => false

/-- The statements that go through `arrT::alloc`, whose failure is not handled by the code. -/
def Op.viaAlloc : Op T → Bool
  | .alloc .. => true
  | .allocAndFill .. => true
  | .assign .. => true
  | .copyFrom .. => true
  | _ => false

/-- Value semantics of a statement that does not fail. -/
def effect (v : Vals T) : Op T → Vals T
  | .ctor0 i => Function.update v i (some [])
  | .ctor _ i sz => Function.update v i (some (List.replicate sz none))
  | .ctorFill _ i sz x => Function.update v i (some (List.replicate sz (some x)))
  | .ctorView _ _ _ => v
  | .ctorCopy _ i j => Function.update v i (some (vat v j))
  | .dtor i => Function.update v i none
  | .alloc _ i sz =>
    if sz = (vat v i).length then v else Function.update v i (some (List.replicate sz none))
  | .allocAndFill _ i sz x => Function.update v i (some (List.replicate sz (some x)))
  | .dealloc i => Function.update v i (some [])
  | .resize _ i sz =>
    Function.update v i (some ((vat v i).take sz ++ List.replicate (sz - (vat v i).length) none))
  | .assign _ i j => Function.update v i (some (vat v j))
  | .copyFrom _ i xs => Function.update v i (some xs)
  | .transfer i j => Function.update (Function.update v i (some (vat v j))) j (some [])
  | .swap i j => Function.update (Function.update v i (some (vat v j))) j (some (vat v i))
  | .write i k x => Function.update v i (some ((vat v i).set k (some x)))
  | .fill i x => Function.update v i (some (List.replicate (vat v i).length (some x)))

/-- Value semantics of a statement: if memory is requested and the allocator fails the statement
throws and nothing changes. -/
def specStep (v : Vals T) (op : Op T) : Vals T × Bool :=
  if op.oom && requests v op then (v, true) else (effect v op, false)

def specRun : List (Op T) → Vals T → Vals T × List Bool
  | [], v => (v, [])
  | op :: ops, v =>
    let r := specRun ops (specStep v op).1
    (r.1, (specStep v op).2 :: r.2)

/-- The statement respects object lifetimes and index bounds. -/
def Legal (v : Vals T) : Op T → Prop
  | .ctor0 i => v i = none
  | .ctor _ i _ => v i = none
  | .ctorFill _ i _ _ => v i = none
  | .ctorView i _ _ => v i = none
  | .ctorCopy _ i j => v i = none ∧ v j ≠ none
  | .dtor i => v i ≠ none
  | .alloc _ i _ => v i ≠ none
  | .allocAndFill _ i _ _ => v i ≠ none
  | .dealloc i => v i ≠ none
  | .resize _ i _ => v i ≠ none
  | .assign _ i j => v i ≠ none ∧ v j ≠ none
  | .copyFrom _ i _ => v i ≠ none
  | .transfer i j => v i ≠ none ∧ v j ≠ none
  | .swap i j => v i ≠ none ∧ v j ≠ none
  | .write i k _ => k < (vat v i).length
  | .fill i _ => v i ≠ none

def Op.isView : Op T → Bool
  | .ctorView .. => true
  | _ => false

/-! ## Invariant -/

/-- The pointer of an object is null (then the size is 0), or it points to a live allocation of
exactly `size()` elements (owning) or to memory of the caller with room for them (view). -/
def ObjOk (heap : Nat → Option (Block T)) (o : Obj) : Prop :=
  match o.d with
  | none => o.s = 0
  | some p =>
    if o.own then ∃ xs, heap p = some ⟨.live, xs⟩ ∧ xs.length = o.s
    else ∃ xs, heap p = some ⟨.ext, xs⟩ ∧ o.s ≤ xs.length

structure Inv (st : St T) : Prop where
  fresh : ∀ p, st.next ≤ p → st.heap p = none
  objOk : ∀ i o, st.objs i = some o → ObjOk st.heap o
  distinct : ∀ i j oi oj p, st.objs i = some oi → st.objs j = some oj → oi.own = true →
    oj.own = true → oi.d = some p → oj.d = some p → i = j
  noLeak : ∀ p xs, st.heap p = some ⟨.live, xs⟩ →
    ∃ i o, st.objs i = some o ∧ o.own = true ∧ o.d = some p

/-- There are no views. -/
def AllOwn (st : St T) : Prop := ∀ i o, st.objs i = some o → o.own = true

theorem inv_init : Inv (St.init : St T) :=
  ⟨fun _ _ => rfl, fun _ _ h => by simp [St.init] at h, fun _ _ _ _ _ h => by simp [St.init] at h,
   fun _ _ h => by simp [St.init] at h⟩

theorem allOwn_init : AllOwn (St.init : St T) := fun _ _ h => by simp [St.init] at h

/-! ## Elementary facts -/

theorem bind_ok {α β : Type} {x : M T α} {f : α → M T β} {st st' : St T} {a : α}
    (h : x st = .ok a st') : (x >>= f) st = f a st' := by
  show M.bind x f st = _
  simp only [M.bind, h]

theorem bind_exc {α β : Type} {x : M T α} {f : α → M T β} {st st' : St T}
    (h : x st = .exc st') : (x >>= f) st = .exc st' := by
  show M.bind x f st = _
  simp only [M.bind, h]

theorem bind_ub {α β : Type} {x : M T α} {f : α → M T β} {st : St T} {w : String}
    (h : x st = .ub w) : (x >>= f) st = .ub w := by
  show M.bind x f st = _
  simp only [M.bind, h]

theorem getO_ok {st : St T} {i : Nat} {o : Obj} (h : st.objs i = some o) :
    getO i st = .ok o st := by unfold getO; rw [h]

/-- Contents of the block of an object. -/
def blockOf (heap : Nat → Option (Block T)) (o : Obj) : List (Option T) :=
  match o.d with
  | none => List.replicate o.s none
  | some p => match heap p with
    | some b => b.data.take o.s
    | none => []

theorem contents_of {st : St T} (h : Inv st) {i : Nat} {o : Obj} (hi : st.objs i = some o) :
    contents st i = some (blockOf st.heap o) := by
  have := h.objOk i o hi
  unfold ObjOk at this
  unfold contents blockOf
  simp only [hi]
  cases hd : o.d with
  | none => rfl
  | some p =>
    rw [hd] at this
    dsimp only at this ⊢
    split at this
    · obtain ⟨xs, h1, -⟩ := this; simp only [h1]
    · obtain ⟨xs, h1, -⟩ := this; simp only [h1]

theorem contents_none {st : St T} {i : Nat} (hi : st.objs i = none) : contents st i = none := by
  unfold contents; rw [hi]

theorem contents_ne_none {st : St T} {i : Nat} (h : contents st i ≠ none) :
    ∃ o, st.objs i = some o := by
  cases hi : st.objs i with
  | none => exact absurd (contents_none hi) h
  | some o => exact ⟨o, rfl⟩

theorem objs_none_of_contents {st : St T} (h : Inv st) {i : Nat} (hc : contents st i = none) :
    st.objs i = none := by
  cases hi : st.objs i with
  | none => rfl
  | some o => rw [contents_of h hi] at hc; cases hc

theorem blockOf_length {heap : Nat → Option (Block T)} {o : Obj} (h : ObjOk heap o) :
    (blockOf heap o).length = o.s := by
  unfold ObjOk at h
  unfold blockOf
  cases hd : o.d with
  | none => simp
  | some p =>
    rw [hd] at h
    dsimp only at h ⊢
    split at h
    · obtain ⟨xs, h1, h2⟩ := h; rw [h1]; simp [h2]
    · obtain ⟨xs, h1, h2⟩ := h; rw [h1]; simp [h2]

theorem at_contents {st : St T} (h : Inv st) {i : Nat} {o : Obj} (hi : st.objs i = some o) :
    vat (contents st) i = blockOf st.heap o := by
  unfold vat; rw [contents_of h hi]; rfl

theorem at_length {st : St T} (h : Inv st) {i : Nat} {o : Obj} (hi : st.objs i = some o) :
    (vat (contents st) i).length = o.s := by
  rw [at_contents h hi, blockOf_length (h.objOk i o hi)]

/-! ## Canonical transitions -/

/-- Heap after `if (own) stm.dealloc(d)`. -/
def freed (heap : Nat → Option (Block T)) (o : Obj) : Nat → Option (Block T) :=
  match o.d with
  | none => heap
  | some p => if o.own then Function.update heap p (some ⟨.freed, []⟩) else heap

theorem freeIfOwn_ok {st : St T} {o : Obj} (h : ObjOk st.heap o) :
    freeIfOwn o st = .ok () { st with heap := freed st.heap o } := by
  unfold freeIfOwn freed
  cases hd : o.d with
  | none => cases o.own <;> rfl
  | some p =>
    cases ho : o.own with
    | false => rfl
    | true =>
      unfold ObjOk at h
      rw [hd] at h
      simp only [ho, if_true] at h
      obtain ⟨xs, h1, -⟩ := h
      rw [if_pos rfl]
      simp only [stmDealloc, h1, if_true]

/-- Object `i` gives up its memory and ceases to exist. -/
def release (st : St T) (i : Nat) (o : Obj) : St T :=
  { st with heap := freed st.heap o, objs := Function.update st.objs i none }

/-- A new object `i` with contents `xs` comes into being. -/
def place (st : St T) (i : Nat) (xs : List (Option T)) : St T :=
  if xs.length = 0 then { st with objs := Function.update st.objs i (some ⟨0, none, true⟩) }
  else
    { heap := Function.update st.heap st.next (some ⟨.live, xs⟩)
      next := st.next + 1
      objs := Function.update st.objs i (some ⟨xs.length, some st.next, true⟩) }

theorem lt_next {st : St T} (h : Inv st) {p : Nat} {b : Block T} (hp : st.heap p = some b) :
    p < st.next := by
  by_contra hn
  rw [h.fresh p (by omega)] at hp
  cases hp

/-- Freeing the block of `i` does not affect another object. -/
theorem freed_other {st : St T} (h : Inv st) {i j : Nat} {oi oj : Obj} (hi : st.objs i = some oi)
    (hj : st.objs j = some oj) (hij : j ≠ i) {p : Nat} (hp : oj.d = some p) :
    freed st.heap oi p = st.heap p := by
  unfold freed
  cases hd : oi.d with
  | none => rfl
  | some q =>
    cases ho : oi.own with
    | false => rfl
    | true =>
      simp only [if_true]
      rw [Function.update_of_ne]
      rintro rfl
      have hoi := h.objOk i oi hi
      have hoj := h.objOk j oj hj
      unfold ObjOk at hoi hoj
      rw [hd] at hoi; rw [hp] at hoj
      simp only [ho, if_true] at hoi
      cases hj' : oj.own with
      | true => exact hij (h.distinct j i oj oi p hj hi hj' ho hp hd)
      | false =>
        simp only [hj', Bool.false_eq_true, if_false] at hoj
        obtain ⟨xs, h1, -⟩ := hoi
        obtain ⟨ys, h2, -⟩ := hoj
        rw [h1] at h2; cases h2

theorem objOk_congr {heap heap' : Nat → Option (Block T)} {o : Obj}
    (hh : ∀ p, o.d = some p → heap' p = heap p) (h : ObjOk heap o) : ObjOk heap' o := by
  unfold ObjOk at h ⊢
  cases hd : o.d with
  | none => rw [hd] at h; exact h
  | some p =>
    rw [hd] at h
    dsimp only at h ⊢
    rw [hh p hd]; exact h

theorem blockOf_congr {heap heap' : Nat → Option (Block T)} {o : Obj}
    (hh : ∀ p, o.d = some p → heap' p = heap p) : blockOf heap' o = blockOf heap o := by
  unfold blockOf
  cases hd : o.d with
  | none => rfl
  | some p => dsimp only; rw [hh p hd]

theorem inv_release {st : St T} (h : Inv st) {i : Nat} {o : Obj} (hi : st.objs i = some o) :
    Inv (release st i o) := by
  refine ⟨?_, ?_, ?_, ?_⟩
  · intro p hp
    have h0 := h.fresh p hp
    show freed st.heap o p = none
    unfold freed
    cases hd : o.d with
    | none => exact h0
    | some q =>
      cases ho : o.own with
      | false => exact h0
      | true =>
        simp only [if_true]
        rw [Function.update_of_ne]
        · exact h0
        · rintro rfl
          have := h.objOk i o hi
          unfold ObjOk at this
          rw [hd] at this
          simp only [ho, if_true] at this
          obtain ⟨xs, h1, -⟩ := this
          rw [h0] at h1; cases h1
  · intro j oj hj
    by_cases hij : j = i
    · subst hij; simp [release] at hj
    · simp only [release, Function.update_of_ne hij] at hj
      exact objOk_congr (fun p hp => freed_other h hi hj hij hp) (h.objOk j oj hj)
  · intro j k oj ok p hj hk
    by_cases hji : j = i
    · subst hji; simp [release] at hj
    by_cases hki : k = i
    · subst hki; simp [release] at hk
    simp only [release, Function.update_of_ne hji] at hj
    simp only [release, Function.update_of_ne hki] at hk
    exact h.distinct j k oj ok p hj hk
  · intro p xs hp
    have key : st.heap p = some ⟨.live, xs⟩ ∧ ¬ (o.own = true ∧ o.d = some p) := by
      simp only [release, freed] at hp
      cases hd : o.d with
      | none => rw [hd] at hp; exact ⟨hp, by simp⟩
      | some q =>
        rw [hd] at hp
        cases ho : o.own with
        | false => rw [ho] at hp; exact ⟨hp, by simp⟩
        | true =>
          rw [ho] at hp
          simp only [if_true] at hp
          by_cases hpq : p = q
          · subst hpq; simp at hp
          · rw [Function.update_of_ne hpq] at hp
            exact ⟨hp, by rintro ⟨-, h2⟩; exact hpq (Option.some.inj h2).symm⟩
    obtain ⟨j, oj, hj, h1, h2⟩ := h.noLeak p xs key.1
    refine ⟨j, oj, ?_, h1, h2⟩
    have hij : j ≠ i := by
      rintro rfl
      rw [hi] at hj; cases hj
      exact key.2 ⟨h1, h2⟩
    simp only [release, Function.update_of_ne hij, hj]

theorem contents_release {st : St T} (h : Inv st) {i : Nat} {o : Obj} (hi : st.objs i = some o) :
    contents (release st i o) = Function.update (contents st) i none := by
  funext j
  by_cases hij : j = i
  · subst hij
    rw [Function.update_self]
    exact contents_none (by simp [release])
  · rw [Function.update_of_ne hij]
    cases hj : st.objs j with
    | none =>
      rw [contents_none hj]
      exact contents_none (by simp only [release, Function.update_of_ne hij, hj])
    | some oj =>
      rw [contents_of h hj, contents_of (inv_release h hi) (i := j) (o := oj)
        (by simp only [release, Function.update_of_ne hij, hj])]
      rw [show (release st i o).heap = freed st.heap o from rfl,
        blockOf_congr (fun p hp => freed_other h hi hj hij hp)]

theorem ptr_ne_next {st : St T} (h : Inv st) {j : Nat} {oj : Obj} (hj : st.objs j = some oj)
    {p : Nat} (hp : oj.d = some p) : p ≠ st.next := by
  have := h.objOk j oj hj
  unfold ObjOk at this
  rw [hp] at this
  dsimp only at this
  split at this <;> (obtain ⟨xs, h1, -⟩ := this; have := lt_next h h1; omega)

theorem inv_place {st : St T} (h : Inv st) {i : Nat} (hi : st.objs i = none)
    (xs : List (Option T)) : Inv (place st i xs) := by
  unfold place
  split
  · refine ⟨h.fresh, ?_, ?_, ?_⟩
    · intro j oj hj
      by_cases hij : j = i
      · subst hij
        simp only [Function.update_self, Option.some.injEq] at hj
        subst hj; rfl
      · simp only [Function.update_of_ne hij] at hj; exact h.objOk j oj hj
    · intro j k oj ok p hj hk h1 h2 h3 h4
      by_cases hji : j = i
      · subst hji
        simp only [Function.update_self, Option.some.injEq] at hj
        subst hj; cases h3
      by_cases hki : k = i
      · subst hki
        simp only [Function.update_self, Option.some.injEq] at hk
        subst hk; cases h4
      simp only [Function.update_of_ne hji] at hj
      simp only [Function.update_of_ne hki] at hk
      exact h.distinct j k oj ok p hj hk h1 h2 h3 h4
    · intro p ys hp
      obtain ⟨j, oj, hj, h1, h2⟩ := h.noLeak p ys hp
      have hij : j ≠ i := by rintro rfl; rw [hi] at hj; cases hj
      exact ⟨j, oj, by simp only [Function.update_of_ne hij, hj], h1, h2⟩
  · refine ⟨?_, ?_, ?_, ?_⟩
    · intro p hp
      dsimp only at hp ⊢
      rw [Function.update_of_ne (by omega)]
      exact h.fresh p (by omega)
    · intro j oj hj
      by_cases hij : j = i
      · subst hij
        simp only [Function.update_self, Option.some.injEq] at hj
        subst hj
        unfold ObjOk
        simp
      · simp only [Function.update_of_ne hij] at hj
        exact objOk_congr (fun p hp => Function.update_of_ne (ptr_ne_next h hj hp) _ _)
          (h.objOk j oj hj)
    · intro j k oj ok p hj hk h1 h2 h3 h4
      by_cases hji : j = i
      · by_cases hki : k = i
        · omega
        subst hji
        simp only [Function.update_self, Option.some.injEq] at hj
        simp only [Function.update_of_ne hki] at hk
        subst hj
        simp only [Option.some.injEq] at h3
        exact absurd h3.symm (ptr_ne_next h hk h4)
      by_cases hki : k = i
      · subst hki
        simp only [Function.update_self, Option.some.injEq] at hk
        simp only [Function.update_of_ne hji] at hj
        subst hk
        simp only [Option.some.injEq] at h4
        exact absurd h4.symm (ptr_ne_next h hj h3)
      simp only [Function.update_of_ne hji] at hj
      simp only [Function.update_of_ne hki] at hk
      exact h.distinct j k oj ok p hj hk h1 h2 h3 h4
    · intro p ys hp
      by_cases hpn : p = st.next
      · exact ⟨i, _, Function.update_self .., rfl, by rw [hpn]⟩
      · dsimp only at hp
        rw [Function.update_of_ne hpn] at hp
        obtain ⟨j, oj, hj, h1, h2⟩ := h.noLeak p ys hp
        have hij : j ≠ i := by rintro rfl; rw [hi] at hj; cases hj
        exact ⟨j, oj, by simp only [Function.update_of_ne hij, hj], h1, h2⟩

theorem contents_place {st : St T} (h : Inv st) {i : Nat} (hi : st.objs i = none)
    (xs : List (Option T)) :
    contents (place st i xs) = Function.update (contents st) i (some xs) := by
  funext j
  by_cases hij : j = i
  · subst hij
    rw [Function.update_self]
    unfold place
    split
    · rename_i h0
      rw [List.length_eq_zero_iff] at h0
      subst h0
      simp [contents]
    · simp [contents]
  · rw [Function.update_of_ne hij]
    cases hj : st.objs j with
    | none =>
      rw [contents_none hj]
      apply contents_none
      unfold place
      split <;> simp only [Function.update_of_ne hij, hj]
    | some oj =>
      have hj' : (place st i xs).objs j = some oj := by
        unfold place
        split <;> simp only [Function.update_of_ne hij, hj]
      rw [contents_of h hj, contents_of (inv_place h hi xs) hj', blockOf_congr]
      intro p hp
      unfold place
      split
      · rfl
      · exact Function.update_of_ne (ptr_ne_next h hj hp) _ _

/-! ## Loops -/

theorem store_ok {st : St T} {p k : Nat} {kd : Kind} {xs : List (Option T)} (v : Option T)
    (hp : st.heap p = some ⟨kd, xs⟩) (hk : kd ≠ .freed) (h : k < xs.length) :
    store (some p) k v st =
      .ok () { st with heap := Function.update st.heap p (some ⟨kd, xs.set k v⟩) } := by
  unfold store
  simp only [hp]
  cases kd <;> simp_all

theorem load_ok {st : St T} {p k : Nat} {kd : Kind} {xs : List (Option T)}
    (hp : st.heap p = some ⟨kd, xs⟩) (hk : kd ≠ .freed) (h : k < xs.length) :
    load (some p) k st = .ok xs[k] st := by
  unfold load
  simp only [hp]
  cases kd <;> simp_all

theorem update_same {st : St T} {p : Nat} {b : Block T} (h : st.heap p = some b) :
    { st with heap := Function.update st.heap p (some b) } = st := by
  rw [show Function.update st.heap p (some b) = st.heap by rw [← h]; exact Function.update_eq_self p _]

theorem take_set_drop {α : Type} (ys xs : List α) (n : Nat) (hy : n < ys.length)
    (hx : n < xs.length) :
    (ys.take n ++ xs.drop n).set n (ys[n]) = ys.take (n + 1) ++ xs.drop (n + 1) := by
  apply List.ext_getElem?
  intro m
  rw [List.getElem?_set]
  by_cases h1 : n = m
  · subst h1
    simp only [if_true, List.length_append, List.length_take, List.length_drop]
    rw [if_pos (by omega), List.getElem?_append_left (by simp; omega)]
    simp [List.getElem?_take, hy]
  · rw [if_neg h1]
    simp only [List.getElem?_append, List.length_take, List.getElem?_take, List.getElem?_drop]
    rw [Nat.min_eq_left (by omega), Nat.min_eq_left (by omega)]
    by_cases h2 : m < n
    · simp [h2, Nat.lt_succ_of_lt h2]
    · rw [if_neg h2, if_neg (by omega)]
      congr 1; omega

/-- A loop that stores the elements of `ys`. -/
theorem storeLoop {st : St T} {p : Nat} {kd : Kind} {xs : List (Option T)} (ys : List (Option T))
    (g : Nat → Option T) (hp : st.heap p = some ⟨kd, xs⟩) (hk : kd ≠ .freed) :
    ∀ n, n ≤ xs.length → n ≤ ys.length → (∀ m (h : m < ys.length), g m = ys[m]) →
    loop n (fun m => store (some p) m (g m)) st =
      .ok () { st with
        heap := Function.update st.heap p (some ⟨kd, ys.take n ++ xs.drop n⟩) }
  | 0, _, _, _ => by
    simp only [loop, List.take_zero, List.nil_append, List.drop_zero]
    rw [update_same hp]; rfl
  | n + 1, hx, hy, hg => by
    have ih := storeLoop ys g hp hk n (by omega) (by omega) hg
    unfold loop
    rw [bind_ok ih]; dsimp only; rw [store_ok (kd := kd) (xs := ys.take n ++ xs.drop n) _
      (by simp) hk (by simp; omega)]
    rw [hg n (by omega), take_set_drop ys xs n (by omega) (by omega)]
    simp

/-- The copy loop, source and destination possibly the same block. -/
theorem copyLoop_ok {st : St T} {p q : Nat} {kd kq : Kind} {xs ys : List (Option T)}
    (hp : st.heap p = some ⟨kd, xs⟩) (hk : kd ≠ .freed)
    (hq : st.heap q = some ⟨kq, ys⟩) (hkq : kq ≠ .freed) :
    ∀ n, n ≤ xs.length → n ≤ ys.length →
    copyLoop n (some p) (some q) st =
      .ok () { st with
        heap := Function.update st.heap p (some ⟨kd, ys.take n ++ xs.drop n⟩) }
  | 0, _, _ => by
    simp only [copyLoop, loop, List.take_zero, List.nil_append, List.drop_zero]
    rw [update_same hp]; rfl
  | n + 1, hx, hy => by
    have ih := copyLoop_ok hp hk hq hkq n (by omega) (by omega)
    unfold copyLoop at ih ⊢
    unfold loop
    rw [bind_ok ih]; dsimp only
    have hl : load (some q) n { st with
        heap := Function.update st.heap p (some ⟨kd, ys.take n ++ xs.drop n⟩) } =
        .ok (ys[n]'(by omega)) { st with
        heap := Function.update st.heap p (some ⟨kd, ys.take n ++ xs.drop n⟩) } := by
      by_cases hqp : q = p
      · subst hqp
        rw [hp] at hq; cases hq
        rw [load_ok (kd := kd) (xs := xs.take n ++ xs.drop n) (by simp) hk (by simp; omega)]
        congr 1
        simp
      · rw [load_ok (kd := kq) (xs := ys) (by simp [Function.update_of_ne hqp, hq]) hkq (by omega)]
    rw [bind_ok hl, store_ok (kd := kd) (xs := ys.take n ++ xs.drop n) _
      (by simp) hk (by simp; omega)]
    rw [take_set_drop ys xs n (by omega) (by omega)]
    simp

/-! ## Overwriting the contents of a block -/

theorem inv_overwrite {st : St T} (h : Inv st) {p : Nat} {kd : Kind} {xs ys : List (Option T)}
    (hp : st.heap p = some ⟨kd, xs⟩) (hl : ys.length = xs.length) :
    Inv { st with heap := Function.update st.heap p (some ⟨kd, ys⟩) } := by
  refine ⟨?_, ?_, h.distinct, ?_⟩
  · intro q hq
    have : q ≠ p := by rintro rfl; have := lt_next h hp; dsimp only at hq; omega
    simp only [Function.update_of_ne this]
    exact h.fresh q hq
  · intro j oj hj
    have ho := h.objOk j oj hj
    unfold ObjOk at ho ⊢
    cases hd : oj.d with
    | none => rw [hd] at ho; exact ho
    | some q =>
      rw [hd] at ho
      dsimp only at ho ⊢
      by_cases hqp : q = p
      · subst hqp
        rw [Function.update_self]
        rw [hp] at ho
        split
        · rename_i h1
          rw [if_pos h1] at ho
          obtain ⟨zs, h2, h3⟩ := ho
          cases h2
          exact ⟨ys, rfl, by omega⟩
        · rename_i h1
          rw [if_neg h1] at ho
          obtain ⟨zs, h2, h3⟩ := ho
          cases h2
          exact ⟨ys, rfl, by omega⟩
      · rw [Function.update_of_ne hqp]; exact ho
  · intro q zs hq
    by_cases hqp : q = p
    · subst hqp
      simp only [Function.update_self, Option.some.injEq, Block.mk.injEq] at hq
      obtain ⟨rfl, -⟩ := hq
      exact h.noLeak q xs hp
    · simp only [Function.update_of_ne hqp] at hq
      exact h.noLeak q zs hq

theorem contents_overwrite {st : St T} (h : Inv st) (hall : AllOwn st) {i p : Nat} {o : Obj}
    (hi : st.objs i = some o) (hd : o.d = some p) {kd : Kind} {xs ys : List (Option T)}
    (hp : st.heap p = some ⟨kd, xs⟩) (hl : ys.length = xs.length) :
    contents { st with heap := Function.update st.heap p (some ⟨kd, ys⟩) } =
      Function.update (contents st) i (some ys) := by
  have h' := inv_overwrite h hp hl
  funext j
  cases hj : st.objs j with
  | none =>
    have hij : j ≠ i := by rintro rfl; rw [hi] at hj; cases hj
    rw [Function.update_of_ne hij, contents_none hj]
    exact contents_none hj
  | some oj =>
    rw [contents_of h' (i := j) (o := oj) hj]
    by_cases hij : j = i
    · subst hij
      rw [hi] at hj; cases hj
      rw [Function.update_self]
      have hlen := blockOf_length (h.objOk j o hi)
      unfold blockOf at hlen ⊢
      rw [hd] at hlen ⊢
      dsimp only at hlen ⊢
      rw [hp] at hlen
      rw [Function.update_self]
      have ho := h.objOk j o hi
      unfold ObjOk at ho
      rw [hd] at ho
      simp only [hall j o hi, if_true] at ho
      obtain ⟨zs, h1, h2⟩ := ho
      rw [hp] at h1; cases h1
      simp only [Option.some.injEq]
      exact List.take_of_length_le (by omega)
    · rw [Function.update_of_ne hij, contents_of h hj]
      congr 1
      apply blockOf_congr
      intro q hq
      apply Function.update_of_ne
      rintro rfl
      exact hij (h.distinct j i oj o q hj hi (hall j oj hj) (hall i o hi) hq hd)

theorem allOwn_place {st : St T} (h : AllOwn st) (i : Nat) (xs : List (Option T)) :
    AllOwn (place st i xs) := by
  intro j o hj
  by_cases hij : j = i
  · subst hij
    unfold place at hj
    split at hj <;>
    · simp only [Function.update_self, Option.some.injEq] at hj
      subst hj; rfl
  · refine h j o ?_
    unfold place at hj
    split at hj <;> simpa only [Function.update_of_ne hij] using hj

theorem allOwn_release {st : St T} (h : AllOwn st) (i : Nat) (o : Obj) :
    AllOwn (release st i o) := by
  intro j oj hj
  by_cases hij : j = i
  · subst hij; simp [release] at hj
  · exact h j oj (by simpa only [release, Function.update_of_ne hij] using hj)

/-! ## Allocation and the state it leaves -/

theorem stmAlloc_ok {st : St T} {oom : Bool} {sz : Nat} (h : (oom && decide (sz ≠ 0)) = false) :
    ∃ d st', stmAlloc oom sz st = .ok d st' ∧
      ∀ i, { st' with objs := Function.update st'.objs i (some ⟨sz, d, true⟩) } =
        place st i (List.replicate sz none) := by
  unfold stmAlloc
  by_cases h0 : sz = 0
  · refine ⟨none, st, by rw [if_pos h0], fun i => ?_⟩
    subst h0
    simp [place]
  · have : oom = false := by simpa [h0] using h
    subst this
    refine ⟨_, _, by rw [if_neg h0, if_neg (by simp)], fun i => ?_⟩
    simp [place, h0]

theorem stmAlloc_exc {st : St T} {oom : Bool} {sz : Nat} (h : (oom && decide (sz ≠ 0)) = true) :
    stmAlloc oom sz st = .exc st := by
  simp only [Bool.and_eq_true, decide_eq_true_eq] at h
  unfold stmAlloc
  rw [if_neg h.2, h.1, if_pos rfl]

end Verif.Arr
