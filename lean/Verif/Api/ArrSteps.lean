import Verif.Api.ArrProps

/-!
# `arrT`: every method preserves the ownership invariant and has value semantics (C36)
-/

namespace Verif.Arr

variable {T : Type}

theorem setO_ap (i : Nat) (o : Obj) (st : St T) :
    setO i o st = .ok () { st with objs := Function.update st.objs i (some o) } := rfl

theorem setO_bind {β : Type} (i : Nat) (o : Obj) (f : Unit → M T β) (st : St T) :
    (setO i o >>= f) st = f () { st with objs := Function.update st.objs i (some o) } := rfl

/-- Storing `ys` (of the right length) into object `i`. -/
theorem overwrite_obj {st : St T} (h : Inv st) {i : Nat} {o : Obj} (hi : st.objs i = some o)
    (ys : List (Option T)) (hy : ys.length = o.s) (c : M T Unit)
    (hnull : o.d = none → c st = .ok () st)
    (hc : ∀ p kd xs, o.d = some p → st.heap p = some ⟨kd, xs⟩ → kd ≠ .freed → o.s ≤ xs.length →
      c st = .ok () { st with heap := Function.update st.heap p (some ⟨kd, ys ++ xs.drop o.s⟩) }) :
    ∃ st', c st = .ok () st' ∧ Inv st' ∧ st'.objs = st.objs ∧
      (AllOwn st → contents st' = Function.update (contents st) i (some ys)) := by
  have ho := h.objOk i o hi
  cases hd : o.d with
  | none =>
    refine ⟨st, hnull hd, h, rfl, fun _ => ?_⟩
    unfold ObjOk at ho
    rw [hd] at ho
    dsimp only at ho
    have hys : ys = [] := List.length_eq_zero_iff.mp (by omega)
    have hc0 : contents st i = some [] := by
      rw [contents_of h hi]
      unfold blockOf
      rw [hd]
      simp [ho]
    rw [hys, ← hc0]
    exact (Function.update_eq_self i _).symm
  | some p =>
    have ho' := ho
    unfold ObjOk at ho
    rw [hd] at ho
    dsimp only at ho
    have key : ∃ kd xs, st.heap p = some ⟨kd, xs⟩ ∧ kd ≠ Kind.freed ∧ o.s ≤ xs.length ∧
        (o.own = true → xs.length = o.s) := by
      split at ho
      · obtain ⟨xs, h1, h2⟩ := ho
        exact ⟨_, xs, h1, by simp, by omega, fun _ => h2⟩
      · rename_i hn
        obtain ⟨xs, h1, h2⟩ := ho
        exact ⟨_, xs, h1, by simp, by omega, fun h => absurd h hn⟩
    obtain ⟨kd, xs, h1, h2, h3, h4⟩ := key
    have hl : (ys ++ xs.drop o.s).length = xs.length := by simp; omega
    refine ⟨_, hc p kd xs hd h1 h2 h3, inv_overwrite h h1 hl, rfl, fun hall => ?_⟩
    rw [contents_overwrite h hall hi hd h1 hl]
    have h5 := h4 (hall i o hi)
    rw [List.drop_of_length_le (by omega), List.append_nil]

theorem fill_ok {st : St T} (h : Inv st) {i : Nat} {o : Obj} (hi : st.objs i = some o) (v : T) :
    ∃ st', fill i v st = .ok () st' ∧ Inv st' ∧ st'.objs = st.objs ∧
      (AllOwn st → contents st' =
        Function.update (contents st) i (some (List.replicate o.s (some v)))) := by
  have ho := h.objOk i o hi
  refine overwrite_obj h hi (List.replicate o.s (some v)) (by simp) _ ?_ ?_
  · intro hd
    unfold fill
    rw [bind_ok (getO_ok hi)]
    unfold ObjOk at ho
    rw [hd] at ho
    dsimp only at ho
    rw [ho]; rfl
  · intro p kd xs hd h1 h2 h3
    unfold fill
    rw [bind_ok (getO_ok hi), hd]
    rw [storeLoop (List.replicate o.s (some v)) (fun _ => some v) h1 h2 o.s h3 (by simp)
      (by simp)]
    simp

theorem copyLoop_obj {st : St T} (h : Inv st) {i j : Nat} {oi oj : Obj}
    (hi : st.objs i = some oi) (hj : st.objs j = some oj) (hs : oi.s = oj.s) :
    ∃ st', copyLoop oi.s oi.d oj.d st = .ok () st' ∧ Inv st' ∧ st'.objs = st.objs ∧
      (AllOwn st → contents st' =
        Function.update (contents st) i (some (vat (contents st) j))) := by
  have ho := h.objOk i oi hi
  have hoj := h.objOk j oj hj
  have hlen := blockOf_length hoj
  rw [at_contents h hj]
  refine overwrite_obj h hi (blockOf st.heap oj) (by omega) _ ?_ ?_
  · intro hd
    unfold ObjOk at ho
    rw [hd] at ho
    dsimp only at ho
    rw [ho]; rfl
  · intro p kd xs hd h1 h2 h3
    rw [hd]
    cases hq : oj.d with
    | none =>
      unfold ObjOk at hoj
      rw [hq] at hoj
      dsimp only at hoj
      have h0 : oi.s = 0 := by omega
      rw [h0]
      have : blockOf st.heap oj = [] := List.length_eq_zero_iff.mp (by omega)
      rw [this]
      simp only [List.nil_append, List.drop_zero]
      rw [update_same h1]; rfl
    | some q =>
      have key : ∃ kq ys, st.heap q = some ⟨kq, ys⟩ ∧ kq ≠ Kind.freed ∧ oj.s ≤ ys.length := by
        unfold ObjOk at hoj
        rw [hq] at hoj
        dsimp only at hoj
        split at hoj
        · obtain ⟨ys, h4, h5⟩ := hoj; exact ⟨_, ys, h4, by simp, by omega⟩
        · obtain ⟨ys, h4, h5⟩ := hoj; exact ⟨_, ys, h4, by simp, by omega⟩
      obtain ⟨kq, ys, h4, h5, h6⟩ := key
      rw [copyLoop_ok h1 h2 h4 h5 oi.s h3 (by omega)]
      have : blockOf st.heap oj = ys.take oi.s := by
        unfold blockOf; rw [hq]; simp only [h4, hs]
      rw [this]

theorem place_irrel (st : St T) (i : Nat) (a : Option Obj) (xs : List (Option T)) :
    place { st with objs := Function.update st.objs i a } i xs = place st i xs := by
  unfold place
  split <;> simp [Function.update_idem]

theorem place_release (st : St T) (i : Nat) (o : Obj) (xs : List (Option T)) :
    place (release st i o) i xs = place { st with heap := freed st.heap o } i xs := by
  unfold release
  exact place_irrel { st with heap := freed st.heap o } i none xs

theorem alloc_ok {st : St T} (h : Inv st) {i : Nat} {o : Obj} (hi : st.objs i = some o)
    (oom : Bool) (sz : Nat) (hf : (oom && decide (sz ≠ 0 ∧ sz ≠ o.s)) = false) :
    alloc oom i sz st =
      .ok () (if sz = o.s then st else place (release st i o) i (List.replicate sz none)) := by
  unfold alloc
  rw [bind_ok (getO_ok hi)]
  by_cases hs : sz = o.s
  · rw [if_pos hs, if_pos hs]; rfl
  · rw [if_neg hs, if_neg hs, bind_ok (freeIfOwn_ok (h.objOk i o hi))]
    rw [setO_bind]
    dsimp only
    obtain ⟨d, st', h1, h2⟩ := stmAlloc_ok (oom := oom) (sz := sz)
      (st := { heap := freed st.heap o, next := st.next,
               objs := Function.update st.objs i (some ⟨sz, o.d, o.own⟩) })
      (by simpa [hs] using hf)
    rw [bind_ok h1]
    rw [setO_ap, h2 i, place_release,
      place_irrel { st with heap := freed st.heap o } i (some ⟨sz, o.d, o.own⟩)]

theorem alloc_exc {st : St T} (h : Inv st) {i : Nat} {o : Obj} (hi : st.objs i = some o)
    (oom : Bool) (sz : Nat) (hf : (oom && decide (sz ≠ 0 ∧ sz ≠ o.s)) = true) :
    alloc oom i sz st =
      .exc { heap := freed st.heap o, next := st.next,
             objs := Function.update st.objs i (some ⟨sz, o.d, o.own⟩) } := by
  simp only [Bool.and_eq_true, decide_eq_true_eq] at hf
  unfold alloc
  rw [bind_ok (getO_ok hi), if_neg hf.2.2, bind_ok (freeIfOwn_ok (h.objOk i o hi))]
  rw [setO_bind]
  dsimp only
  rw [bind_exc (stmAlloc_exc (by simp [hf.1, hf.2.1]))]

/-- After `alloc` object `i` has the requested size; if it was re-allocated the contents are
indeterminate. -/
theorem alloc_spec {st : St T} (h : Inv st) {i : Nat} {o : Obj} (hi : st.objs i = some o)
    (oom : Bool) (sz : Nat) (hf : (oom && decide (sz ≠ 0 ∧ sz ≠ o.s)) = false) :
    ∃ st' o', alloc oom i sz st = .ok () st' ∧ Inv st' ∧ st'.objs i = some o' ∧ o'.s = sz ∧
      (∀ j, j ≠ i → st'.objs j = st.objs j) ∧
      (∀ j oj p, j ≠ i → st.objs j = some oj → oj.d = some p → st'.heap p = st.heap p) ∧
      (AllOwn st → AllOwn st' ∧ contents st' =
        if sz = o.s then contents st
        else Function.update (contents st) i (some (List.replicate sz none))) := by
  rw [alloc_ok h hi oom sz hf]
  by_cases hs : sz = o.s
  · simp only [if_pos hs]
    exact ⟨st, o, rfl, h, hi, hs.symm, fun _ _ => rfl, fun _ _ _ _ _ _ => rfl,
      fun hall => ⟨hall, rfl⟩⟩
  · simp only [if_neg hs]
    have hr := inv_release h hi
    have hn : (release st i o).objs i = none := by simp [release]
    have hp := inv_place hr hn (List.replicate sz none)
    refine ⟨_, ?o', rfl, hp, ?_, ?_, ?_, ?_, fun hall => ⟨allOwn_place (allOwn_release hall i o) i _, ?_⟩⟩
    case o' => exact if sz = 0 then ⟨0, none, true⟩ else ⟨sz, some st.next, true⟩
    · unfold place
      by_cases h0 : sz = 0
      · simp [h0]
      · simp [h0, release]
    · by_cases h0 : sz = 0 <;> simp [h0]
    · intro j hj
      unfold place
      split <;> simp [release, Function.update_of_ne hj]
    · intro j oj p hj hoj hd
      have h1 := freed_other h hi hoj hj hd
      unfold place
      split
      · exact h1
      · simp only [release]
        rw [Function.update_of_ne (ptr_ne_next h hoj hd)]
        exact h1
    · rw [contents_place hr hn, contents_release h hi, Function.update_idem]

/-- Outcome of a statement in a state satisfying the invariant. -/
def Good (st : St T) (op : Op T) : Prop :=
  ((op.oom && requests (contents st) op) = true → step op st = .exc st) ∧
  ((op.oom && requests (contents st) op) = false →
    ∃ st', step op st = .ok () st' ∧ Inv st' ∧
      (op.isView = false → AllOwn st → AllOwn st' ∧ contents st' = effect (contents st) op))

theorem allOwn_of_objs {st st' : St T} (h : AllOwn st) (ho : st'.objs = st.objs) : AllOwn st' := by
  intro i o hi; rw [ho] at hi; exact h i o hi

theorem good_ctor {st : St T} (h : Inv st) (oom : Bool) (i sz : Nat)
    (hl : Legal (contents st) (.ctor oom i sz)) : Good st (.ctor oom i sz) := by
  have hi := objs_none_of_contents h hl
  constructor
  · intro hf
    simp only [step, ctor]
    rw [bind_exc (stmAlloc_exc (by simpa [Op.oom, requests] using hf))]
  · intro hf
    obtain ⟨d, st', h1, h2⟩ := stmAlloc_ok (st := st) (oom := oom) (sz := sz)
      (by simpa [Op.oom, requests] using hf)
    refine ⟨place st i (List.replicate sz none), ?_, inv_place h hi _, fun _ hall =>
      ⟨allOwn_place hall i _, contents_place h hi _⟩⟩
    simp only [step, ctor]
    rw [bind_ok h1]
    rw [setO_ap, h2 i]

theorem place_obj (st : St T) (i : Nat) (xs : List (Option T)) :
    ∃ o, (place st i xs).objs i = some o ∧ o.s = xs.length ∧ o.own = true ∧
      (xs.length = 0 → o.d = none) ∧ (xs.length ≠ 0 → o.d = some st.next) := by
  unfold place
  split
  · rename_i h0
    exact ⟨_, Function.update_self .., h0.symm, rfl, fun _ => rfl, fun h => absurd h0 h⟩
  · rename_i h0
    exact ⟨_, Function.update_self .., rfl, rfl, fun h => absurd h h0, fun _ => rfl⟩

theorem good_ctorFill {st : St T} (h : Inv st) (oom : Bool) (i sz : Nat) (v : T)
    (hl : Legal (contents st) (.ctorFill oom i sz v)) : Good st (.ctorFill oom i sz v) := by
  have hi := objs_none_of_contents h hl
  constructor
  · intro hf
    simp only [step, ctorFill]
    rw [bind_exc (stmAlloc_exc (by simpa [Op.oom, requests] using hf))]
  · intro hf
    obtain ⟨d, st', h1, h2⟩ := stmAlloc_ok (st := st) (oom := oom) (sz := sz)
      (by simpa [Op.oom, requests] using hf)
    have hp := inv_place h hi (List.replicate sz none)
    obtain ⟨o, ho, hs, -⟩ := place_obj st i (List.replicate sz (none : Option T))
    obtain ⟨st'', h3, h4, h5, h6⟩ := fill_ok hp ho v
    refine ⟨st'', ?_, h4, fun _ hall => ?_⟩
    · simp only [step, ctorFill]
      rw [bind_ok h1]
      rw [setO_bind, h2 i, h3]
    · have hall' := allOwn_place hall i (List.replicate sz (none : Option T))
      refine ⟨allOwn_of_objs hall' h5, ?_⟩
      rw [h6 hall', contents_place h hi, Function.update_idem, hs]
      simp [effect]

theorem getO_vat {st : St T} {i : Nat} (hl : contents st i ≠ none) :
    ∃ o, st.objs i = some o := contents_ne_none hl

theorem good_ctorCopy {st : St T} (h : Inv st) (oom : Bool) (i j : Nat)
    (hl : Legal (contents st) (.ctorCopy oom i j)) : Good st (.ctorCopy oom i j) := by
  have hi := objs_none_of_contents h hl.1
  obtain ⟨oj, hj⟩ := contents_ne_none hl.2
  have hjl := at_length h hj
  have hij : j ≠ i := by rintro rfl; rw [hi] at hj; cases hj
  constructor
  · intro hf
    simp only [step, ctorCopy]
    rw [bind_ok (getO_ok hj), bind_exc (stmAlloc_exc (by simpa [Op.oom, requests, hjl] using hf))]
  · intro hf
    obtain ⟨d, st', h1, h2⟩ := stmAlloc_ok (st := st) (oom := oom) (sz := oj.s)
      (by simpa [Op.oom, requests, hjl] using hf)
    have hp := inv_place h hi (List.replicate oj.s none)
    obtain ⟨o, ho, hs, -⟩ := place_obj st i (List.replicate oj.s (none : Option T))
    have hod : o.d = d := by
      have := congrArg (fun s => s.objs i) (h2 i)
      simp only [Function.update_self, ho] at this
      cases this; rfl
    simp only [List.length_replicate] at hs
    have hj' : (place st i (List.replicate oj.s (none : Option T))).objs j = some oj := by
      unfold place
      split <;> simp only [Function.update_of_ne hij, hj]
    obtain ⟨st'', h3, h4, h5, h6⟩ := copyLoop_obj hp ho hj' hs
    refine ⟨st'', ?_, h4, fun _ hall => ?_⟩
    · simp only [step, ctorCopy]
      rw [bind_ok (getO_ok hj), bind_ok h1]
      rw [setO_bind, h2 i, ← hs, ← hod, hs]
      rw [hs] at h3
      exact h3
    · have hall' := allOwn_place hall i (List.replicate oj.s (none : Option T))
      refine ⟨allOwn_of_objs hall' h5, ?_⟩
      rw [h6 hall', contents_place h hi, Function.update_idem]
      simp only [effect]
      congr 2
      unfold vat
      rw [Function.update_of_ne hij]

theorem good_dtor {st : St T} (h : Inv st) (i : Nat) (hl : Legal (contents st) (.dtor i)) :
    Good st (.dtor i) := by
  obtain ⟨o, hi⟩ := contents_ne_none hl
  refine ⟨fun hf => by simp [Op.oom] at hf, fun _ => ⟨release st i o, ?_, inv_release h hi,
    fun _ hall => ⟨allOwn_release hall i o, contents_release h hi⟩⟩⟩
  simp only [step, dtor]
  rw [bind_ok (getO_ok hi), bind_ok (freeIfOwn_ok (h.objOk i o hi))]
  rfl

theorem good_ctor0 {st : St T} (h : Inv st) (i : Nat) (hl : Legal (contents st) (.ctor0 i)) :
    Good st (.ctor0 i) := by
  have hi := objs_none_of_contents h hl
  refine ⟨fun hf => by simp [Op.oom] at hf, fun _ => ⟨place st i [], ?_, inv_place h hi _,
    fun _ hall => ⟨allOwn_place hall i _, contents_place h hi _⟩⟩⟩
  simp [step, ctor0, setO, place]

theorem good_dealloc {st : St T} (h : Inv st) (i : Nat) (hl : Legal (contents st) (.dealloc i)) :
    Good st (.dealloc i) := by
  obtain ⟨o, hi⟩ := contents_ne_none hl
  have hr := inv_release h hi
  have hn : (release st i o).objs i = none := by simp [release]
  refine ⟨fun hf => by simp [Op.oom] at hf, fun _ => ⟨place (release st i o) i [], ?_,
    inv_place hr hn _, fun _ hall => ⟨allOwn_place (allOwn_release hall i o) i _, ?_⟩⟩⟩
  · simp only [step, dealloc]
    rw [bind_ok (getO_ok hi), bind_ok (freeIfOwn_ok (h.objOk i o hi))]
    simp [reset, setO, place, release, Function.update_idem]
  · rw [contents_place hr hn, contents_release h hi, Function.update_idem]; rfl

theorem good_alloc {st : St T} (h : Inv st) (oom : Bool) (i sz : Nat)
    (hl : Legal (contents st) (.alloc oom i sz))
    (hf : (oom && requests (contents st) (.alloc oom i sz)) = false) :
    Good st (.alloc oom i sz) := by
  obtain ⟨o, hi⟩ := contents_ne_none hl
  have hol := at_length h hi
  refine ⟨(fun hf' => by simp only [Op.oom] at hf'; rw [hf] at hf'; cases hf'), fun _ => ?_⟩
  obtain ⟨st', o', h1, h2, -, -, -, -, h3⟩ := alloc_spec h hi oom sz
    (by simpa [requests, hol] using hf)
  refine ⟨st', h1, h2, fun _ hall => ⟨(h3 hall).1, ?_⟩⟩
  rw [(h3 hall).2]
  simp only [effect, hol]

theorem good_allocAndFill {st : St T} (h : Inv st) (oom : Bool) (i sz : Nat) (v : T)
    (hl : Legal (contents st) (.allocAndFill oom i sz v))
    (hf : (oom && requests (contents st) (.allocAndFill oom i sz v)) = false) :
    Good st (.allocAndFill oom i sz v) := by
  obtain ⟨o, hi⟩ := contents_ne_none hl
  have hol := at_length h hi
  refine ⟨(fun hf' => by simp only [Op.oom] at hf'; rw [hf] at hf'; cases hf'), fun _ => ?_⟩
  obtain ⟨st', o', h1, h2, ho', hs', -, -, h3⟩ := alloc_spec h hi oom sz
    (by simpa [requests, hol] using hf)
  obtain ⟨st'', h4, h5, h6, h7⟩ := fill_ok h2 ho' v
  refine ⟨st'', ?_, h5, fun _ hall => ⟨allOwn_of_objs (h3 hall).1 h6, ?_⟩⟩
  · simp only [step, allocAndFill]
    rw [bind_ok h1, h4]
  · rw [h7 (h3 hall).1, (h3 hall).2, hs']
    split
    · rfl
    · rw [Function.update_idem]; rfl

theorem good_copyFrom {st : St T} (h : Inv st) (oom : Bool) (i : Nat) (xs : List (Option T))
    (hl : Legal (contents st) (.copyFrom oom i xs))
    (hf : (oom && requests (contents st) (.copyFrom oom i xs)) = false) :
    Good st (.copyFrom oom i xs) := by
  obtain ⟨o, hi⟩ := contents_ne_none hl
  have hol := at_length h hi
  refine ⟨(fun hf' => by simp only [Op.oom] at hf'; rw [hf] at hf'; cases hf'), fun _ => ?_⟩
  obtain ⟨st', o', h1, h2, ho', hs', -, -, h3⟩ := alloc_spec h hi oom xs.length
    (by simpa [requests, hol] using hf)
  obtain ⟨st'', h4, h5, h6, h7⟩ := overwrite_obj h2 ho' xs hs'.symm
    (loop o'.s fun m => store o'.d m (xs[m]?.join))
    (by
      intro hd
      have := h2.objOk i o' ho'
      unfold ObjOk at this
      rw [hd] at this
      dsimp only at this
      rw [this]; rfl)
    (by
      intro p kd ys hd hp hk hle
      rw [hd, storeLoop xs (fun m => xs[m]?.join) hp hk o'.s hle (by omega)
        (by intro m hm; simp [hm]), List.take_of_length_le (by omega)])
  refine ⟨st'', ?_, h5, fun _ hall => ⟨allOwn_of_objs (h3 hall).1 h6, ?_⟩⟩
  · simp only [step, copyFrom]
    rw [bind_ok h1, bind_ok (getO_ok ho'), h4]
  · rw [h7 (h3 hall).1, (h3 hall).2]
    split
    · rfl
    · rw [Function.update_idem]; rfl

theorem good_fill {st : St T} (h : Inv st) (i : Nat) (v : T)
    (hl : Legal (contents st) (.fill i v)) : Good st (.fill i v) := by
  obtain ⟨o, hi⟩ := contents_ne_none hl
  have hol := at_length h hi
  refine ⟨fun hf => by simp [Op.oom] at hf, fun _ => ?_⟩
  obtain ⟨st', h1, h2, h3, h4⟩ := fill_ok h hi v
  refine ⟨st', h1, h2, fun _ hall => ⟨allOwn_of_objs hall h3, ?_⟩⟩
  rw [h4 hall]
  simp only [effect, hol]

theorem good_assign {st : St T} (h : Inv st) (oom : Bool) (i j : Nat)
    (hl : Legal (contents st) (.assign oom i j))
    (hf : (oom && requests (contents st) (.assign oom i j)) = false) :
    Good st (.assign oom i j) := by
  obtain ⟨oi, hi⟩ := contents_ne_none hl.1
  obtain ⟨oj, hj⟩ := contents_ne_none hl.2
  have hil := at_length h hi
  have hjl := at_length h hj
  refine ⟨(fun hf' => by simp only [Op.oom] at hf'; rw [hf] at hf'; cases hf'), fun _ => ?_⟩
  by_cases hij : i = j
  · subst hij
    refine ⟨st, ?_, h, fun _ hall => ⟨hall, ?_⟩⟩
    · simp only [step, assign, if_true]; rfl
    · simp only [effect]
      rw [at_contents h hi, ← contents_of h hi]
      exact (Function.update_eq_self i _).symm
  · obtain ⟨st', o', h1, h2, ho', hs', hobj, -, h3⟩ := alloc_spec h hi oom oj.s
      (by simpa [requests, hil, hjl, hij] using hf)
    have hj' : st'.objs j = some oj := by rw [hobj j (Ne.symm hij), hj]
    obtain ⟨st'', h4, h5, h6, h7⟩ := copyLoop_obj h2 ho' hj' hs'
    refine ⟨st'', ?_, h5, fun _ hall => ⟨allOwn_of_objs (h3 hall).1 h6, ?_⟩⟩
    · simp only [step, assign, if_neg hij]
      rw [bind_ok (getO_ok hj), bind_ok h1, bind_ok (getO_ok ho'), h4]
    · rw [h7 (h3 hall).1, (h3 hall).2]
      split
      · rfl
      · rw [Function.update_idem]
        simp only [effect]
        congr 2
        unfold vat
        rw [Function.update_of_ne (Ne.symm hij)]

theorem contents_at {st : St T} (h : Inv st) {i : Nat} {o : Obj} (hi : st.objs i = some o) :
    contents st i = some (vat (contents st) i) := by
  rw [at_contents h hi]; exact contents_of h hi

theorem good_write {st : St T} (h : Inv st) (i k : Nat) (v : T)
    (hl : Legal (contents st) (.write i k v)) : Good st (.write i k v) := by
  have hne : contents st i ≠ none := by
    intro hn
    simp [Legal, vat, hn] at hl
  obtain ⟨o, hi⟩ := contents_ne_none hne
  have hol := at_length h hi
  have hk : k < o.s := by rw [← hol]; exact hl
  refine ⟨fun hf => by simp [Op.oom] at hf, fun _ => ?_⟩
  obtain ⟨st', h1, h2, h3, h4⟩ := overwrite_obj h hi ((blockOf st.heap o).set k (some v))
    (by rw [List.length_set, blockOf_length (h.objOk i o hi)]) (write i k v)
    (by
      intro hd
      have := h.objOk i o hi
      unfold ObjOk at this
      rw [hd] at this
      dsimp only at this
      omega)
    (by
      intro p kd xs hd hp hkd hle
      unfold write
      rw [bind_ok (getO_ok hi), hd, store_ok _ hp hkd (by omega)]
      have : blockOf st.heap o = xs.take o.s := by
        unfold blockOf; rw [hd]; simp only [hp]
      rw [this]
      congr 5
      rw [← List.set_append_left _ _ (by simp; omega), List.take_append_drop])
  refine ⟨st', h1, h2, fun _ hall => ⟨allOwn_of_objs hall h3, ?_⟩⟩
  rw [h4 hall]
  simp only [effect, at_contents h hi]

/-- Exchanging or moving the members of two objects. -/
theorem inv_swap {st : St T} (h : Inv st) {i j : Nat} {oi oj : Obj} (hi : st.objs i = some oi)
    (hj : st.objs j = some oj) :
    Inv { st with objs := Function.update (Function.update st.objs i (some oj)) j (some oi) } := by
  -- the new object table is the old one after renaming i <-> j
  have hren : ∀ k, Function.update (Function.update st.objs i (some oj)) j (some oi) k =
      st.objs (if k = j then i else if k = i then j else k) := by
    intro k
    by_cases hkj : k = j
    · subst hkj; simp [hi]
    · rw [Function.update_of_ne hkj, if_neg hkj]
      by_cases hki : k = i
      · subst hki; simp [hj]
      · rw [Function.update_of_ne hki, if_neg hki]
  refine ⟨h.fresh, ?_, ?_, ?_⟩
  · intro k o hk
    dsimp only at hk
    rw [hren] at hk
    exact h.objOk _ o hk
  · intro k l ok ol p hk hl h1 h2 h3 h4
    dsimp only at hk hl
    rw [hren] at hk hl
    have := h.distinct _ _ ok ol p hk hl h1 h2 h3 h4
    split_ifs at this <;> omega
  · intro p xs hp
    obtain ⟨k, o, hk, h1, h2⟩ := h.noLeak p xs hp
    refine ⟨if k = j then i else if k = i then j else k, o, ?_, h1, h2⟩
    dsimp only
    rw [hren]
    rw [← hk]
    congr 1
    split_ifs <;> omega

theorem good_swap {st : St T} (h : Inv st) (i j : Nat)
    (hl : Legal (contents st) (.swap i j)) : Good st (.swap i j) := by
  obtain ⟨oi, hi⟩ := contents_ne_none hl.1
  obtain ⟨oj, hj⟩ := contents_ne_none hl.2
  have hinv := inv_swap h hi hj
  refine ⟨fun hf => by simp [Op.oom] at hf, fun _ => ⟨_, ?_, hinv, fun _ hall => ⟨?_, ?_⟩⟩⟩
  · simp only [step, swap]
    rw [bind_ok (getO_ok hi), bind_ok (getO_ok hj)]
    rw [setO_bind, setO_ap]
  · intro k o hk
    dsimp only at hk
    by_cases hkj : k = j
    · subst hkj
      rw [Function.update_self] at hk; cases hk; exact hall i _ hi
    · rw [Function.update_of_ne hkj] at hk
      by_cases hki : k = i
      · subst hki; rw [Function.update_self] at hk; cases hk; exact hall j _ hj
      · rw [Function.update_of_ne hki] at hk; exact hall k o hk
  · funext k
    simp only [effect]
    by_cases hkj : k = j
    · subst hkj
      rw [Function.update_self, contents_of hinv (o := oi) (by simp), at_contents h hi]
    · rw [Function.update_of_ne hkj]
      by_cases hki : k = i
      · subst hki
        rw [Function.update_self, contents_of hinv (o := oj) (by simp [Function.update_of_ne hkj]),
          at_contents h hj]
      · rw [Function.update_of_ne hki]
        unfold contents
        simp only [Function.update_of_ne hkj, Function.update_of_ne hki]

theorem good_transfer {st : St T} (h : Inv st) (i j : Nat)
    (hl : Legal (contents st) (.transfer i j)) : Good st (.transfer i j) := by
  obtain ⟨oi, hi⟩ := contents_ne_none hl.1
  obtain ⟨oj, hj⟩ := contents_ne_none hl.2
  -- equivalent to: dealloc i; swap i j
  obtain ⟨-, hd⟩ := good_dealloc h i hl.1
  obtain ⟨st1, h1, hinv1, h2⟩ := hd rfl
  have hst1 : st1 = { st with heap := freed st.heap oi,
                              objs := Function.update st.objs i (some ⟨0, none, true⟩) } := by
    simp only [step, dealloc] at h1
    rw [bind_ok (getO_ok hi), bind_ok (freeIfOwn_ok (h.objOk i oi hi))] at h1
    simp only [reset, setO] at h1
    cases h1; rfl
  have hi1 : st1.objs i = some ⟨0, none, true⟩ := by rw [hst1]; simp
  obtain ⟨oj1, hj1⟩ : ∃ o, st1.objs j = some o := by
    by_cases hij : j = i
    · subst hij; exact ⟨_, hi1⟩
    · rw [hst1]; exact ⟨oj, by simp [Function.update_of_ne hij, hj]⟩
  have hl1 : Legal (contents st1) (.swap i j) :=
    ⟨by rw [contents_of hinv1 hi1]; simp, by rw [contents_of hinv1 hj1]; simp⟩
  obtain ⟨-, hs⟩ := good_swap hinv1 i j hl1
  obtain ⟨st2, h3, hinv2, h4⟩ := hs rfl
  refine ⟨fun hf => by simp [Op.oom] at hf, fun _ => ⟨st2, ?_, hinv2, fun _ hall => ?_⟩⟩
  · simp only [step, swap] at h3
    rw [bind_ok (getO_ok hi1), bind_ok (getO_ok hj1)] at h3
    rw [setO_bind, setO_ap] at h3
    rw [← h3]
    simp only [step, transfer]
    rw [bind_ok (getO_ok hi), bind_ok (freeIfOwn_ok (h.objOk i oi hi)),
      bind_ok (getO_ok (o := oj) (by exact hj))]
    unfold reset
    rw [setO_bind, setO_ap, hst1]
    dsimp only
    congr 2
    by_cases hij : j = i
    · subst hij; simp [Function.update_idem]
    · rw [hst1] at hj1
      simp only [Function.update_of_ne hij] at hj1
      rw [hj] at hj1; cases hj1
      rw [Function.update_idem]
  · obtain ⟨hall1, hc1⟩ := h2 rfl hall
    obtain ⟨hall2, hc2⟩ := h4 rfl hall1
    refine ⟨hall2, ?_⟩
    rw [hc2, hc1]
    simp only [effect]
    by_cases hij : j = i
    · subst hij; simp [vat, Function.update_idem]
    · simp [vat, Function.update_idem, Function.update_of_ne hij]

theorem good_resize {st : St T} (h : Inv st) (oom : Bool) (i sz : Nat)
    (hl : Legal (contents st) (.resize oom i sz)) : Good st (.resize oom i sz) := by
  obtain ⟨o, hi⟩ := contents_ne_none hl
  have hol := at_length h hi
  have ho := h.objOk i o hi
  constructor
  · intro hf
    simp only [Op.oom, requests, hol, Bool.and_eq_true, decide_eq_true_eq] at hf
    simp only [step, resize]
    rw [bind_ok (getO_ok hi), if_neg hf.2.2, bind_exc (stmAlloc_exc (by simp [hf.1, hf.2.1]))]
  · intro hf
    simp only [Op.oom, requests, hol] at hf
    simp only [step, resize]
    rw [bind_ok (getO_ok hi)]
    by_cases hs : sz = o.s
    · rw [if_pos hs]
      refine ⟨st, rfl, h, fun _ hall => ⟨hall, ?_⟩⟩
      simp only [effect]
      rw [List.take_of_length_le (by omega), hol, hs, Nat.sub_self, List.replicate_zero,
        List.append_nil, ← contents_at h hi]
      exact (Function.update_eq_self i _).symm
    · rw [if_neg hs]
      set xs := (blockOf st.heap o).take sz ++ List.replicate (sz - o.s) none with hxs
      have hbl := blockOf_length ho
      have hxl : xs.length = sz := by
        rw [hxs]; simp [hbl]; omega
      have hr := inv_release h hi
      have hn : (release st i o).objs i = none := by simp [release]
      refine ⟨place (release st i o) i xs, ?_, inv_place hr hn xs, fun _ hall =>
        ⟨allOwn_place (allOwn_release hall i o) i _, ?_⟩⟩
      · by_cases h0 : sz = 0
        · have hx0 : xs = [] := List.length_eq_zero_iff.mp (by omega)
          rw [bind_ok (a := none) (st' := st) (by unfold stmAlloc; rw [if_pos h0])]
          rw [bind_ok (a := ()) (st' := st) (by rw [h0]; simp [copyLoop, loop]; rfl)]
          rw [bind_ok (freeIfOwn_ok ho), hx0]
          simp [setO, place, release, Function.update_idem, h0]
        · have hoom : oom = false := by simpa [h0, hs] using hf
          have hal : stmAlloc oom sz st = .ok (some st.next)
            { st with heap := Function.update st.heap st.next (some ⟨.live, List.replicate sz none⟩)
                      next := st.next + 1 } := by
            unfold stmAlloc
            rw [if_neg h0, hoom, if_neg (by simp)]
          rw [bind_ok hal]
          have hcp : copyLoop (min sz o.s) (some st.next) o.d
              { st with
                heap := Function.update st.heap st.next (some ⟨.live, List.replicate sz none⟩)
                next := st.next + 1 } = .ok ()
              { st with
                heap := Function.update st.heap st.next (some ⟨.live, xs⟩)
                next := st.next + 1 } := by
            cases hd : o.d with
            | none =>
              have ho' := ho
              unfold ObjOk at ho'
              rw [hd] at ho'
              dsimp only at ho'
              rw [ho', Nat.min_zero]
              have : xs = List.replicate sz none := by
                rw [hxs, ho', List.length_eq_zero_iff.mp (hbl.trans ho')]
                simp
              rw [this]; rfl
            | some p =>
              have hpn := ptr_ne_next h hi hd
              have key : ∃ kq ys, st.heap p = some ⟨kq, ys⟩ ∧ kq ≠ Kind.freed ∧ o.s ≤ ys.length := by
                have ho' := ho
                unfold ObjOk at ho'
                rw [hd] at ho'
                dsimp only at ho'
                split at ho'
                · obtain ⟨ys, h4, h5⟩ := ho'; exact ⟨_, ys, h4, by simp, by omega⟩
                · obtain ⟨ys, h4, h5⟩ := ho'; exact ⟨_, ys, h4, by simp, by omega⟩
              obtain ⟨kq, ys, h4, h5, h6⟩ := key
              rw [copyLoop_ok (p := st.next) (q := p) (kd := .live) (kq := kq)
                (xs := List.replicate sz none) (ys := ys) (by simp) (by simp)
                (by simp [Function.update_of_ne hpn, h4]) h5 (min sz o.s)
                (by simp only [List.length_replicate]; omega) (by omega)]
              have : ys.take (min sz o.s) ++ (List.replicate sz none).drop (min sz o.s) = xs := by
                rw [hxs]
                unfold blockOf
                rw [hd]
                simp only [h4, List.take_take, List.drop_replicate]
                congr 2; omega
              rw [this]
              simp [Function.update_idem]
          rw [bind_ok hcp]
          have hfr : freeIfOwn o { st with
                heap := Function.update st.heap st.next (some ⟨.live, xs⟩)
                next := st.next + 1 } = .ok () { st with
                heap := freed (Function.update st.heap st.next (some ⟨.live, xs⟩)) o
                next := st.next + 1 } :=
            freeIfOwn_ok (st := { st with
                heap := Function.update st.heap st.next (some ⟨.live, xs⟩)
                next := st.next + 1 })
              (objOk_congr (fun p hp => Function.update_of_ne (ptr_ne_next h hi hp) _ _) ho)
          rw [bind_ok hfr]
          have hcomm : freed (Function.update st.heap st.next (some ⟨.live, xs⟩)) o =
              Function.update (freed st.heap o) st.next (some ⟨.live, xs⟩) := by
            unfold freed
            cases hd : o.d with
            | none => rfl
            | some p =>
              cases o.own with
              | false => rfl
              | true =>
                simp only [if_true]
                exact Function.update_comm (ptr_ne_next h hi hd).symm _ _ _
          simp only [setO, place, release, Function.update_idem, hxl, h0, if_false, hcomm]
      · rw [contents_place hr hn, contents_release h hi, Function.update_idem, hxs]
        simp only [effect, at_contents h hi, hbl]

/-- A view constructed on memory of the caller. -/
theorem inv_view {st : St T} (h : Inv st) {i p sz : Nat} (hi : st.objs i = none)
    {xs : List (Option T)} (hp : st.heap p = some ⟨.ext, xs⟩) (hs : sz ≤ xs.length) :
    Inv { st with objs := Function.update st.objs i (some ⟨sz, some p, false⟩) } := by
  refine ⟨h.fresh, ?_, ?_, ?_⟩
  · intro j oj hj
    by_cases hij : j = i
    · subst hij
      simp only [Function.update_self, Option.some.injEq] at hj
      subst hj
      exact ⟨xs, hp, hs⟩
    · simp only [Function.update_of_ne hij] at hj; exact h.objOk j oj hj
  · intro j k oj ok q hj hk h1 h2 h3 h4
    by_cases hji : j = i
    · subst hji
      simp only [Function.update_self, Option.some.injEq] at hj
      subst hj; cases h1
    by_cases hki : k = i
    · subst hki
      simp only [Function.update_self, Option.some.injEq] at hk
      subst hk; cases h2
    simp only [Function.update_of_ne hji] at hj
    simp only [Function.update_of_ne hki] at hk
    exact h.distinct j k oj ok q hj hk h1 h2 h3 h4
  · intro q ys hq
    obtain ⟨j, oj, hj, h1, h2⟩ := h.noLeak q ys hq
    have hij : j ≠ i := by rintro rfl; rw [hi] at hj; cases hj
    exact ⟨j, oj, by simp only [Function.update_of_ne hij, hj], h1, h2⟩

/-- A view is constructed on existing caller memory with room for `sz` elements. -/
def ViewOk (st : St T) : Op T → Prop
  | .ctorView _ p sz => ∃ xs, st.heap p = some ⟨.ext, xs⟩ ∧ sz ≤ xs.length
  | _ => True

theorem good_step {st : St T} (h : Inv st) (op : Op T) (hl : Legal (contents st) op)
    (hv : ViewOk st op)
    (hf : (op.oom && requests (contents st) op && op.viaAlloc) = false) : Good st op := by
  have key : op.viaAlloc = true → (op.oom && requests (contents st) op) = false := by
    intro h1; rw [h1, Bool.and_true] at hf; exact hf
  cases op with
  | ctor0 i => exact good_ctor0 h i hl
  | ctor oom i sz => exact good_ctor h oom i sz hl
  | ctorFill oom i sz v => exact good_ctorFill h oom i sz v hl
  | ctorView i p sz =>
    obtain ⟨xs, h1, h2⟩ := hv
    exact ⟨fun hf => by simp [Op.oom] at hf, fun _ =>
      ⟨_, rfl, inv_view h (objs_none_of_contents h hl) h1 h2, fun hf => by cases hf⟩⟩
  | ctorCopy oom i j => exact good_ctorCopy h oom i j hl
  | dtor i => exact good_dtor h i hl
  | alloc oom i sz => exact good_alloc h oom i sz hl (key rfl)
  | allocAndFill oom i sz v => exact good_allocAndFill h oom i sz v hl (key rfl)
  | dealloc i => exact good_dealloc h i hl
  | resize oom i sz => exact good_resize h oom i sz hl
  | assign oom i j => exact good_assign h oom i j hl (key rfl)
  | copyFrom oom i xs => exact good_copyFrom h oom i xs hl (key rfl)
  | transfer i j => exact good_transfer h i j hl
  | swap i j => exact good_swap h i j hl
  | write i k v => exact good_write h i k v hl
  | fill i v => exact good_fill h i v hl

/-! ## Programs -/

/-- A program whose statements respect lifetimes and index bounds, constructs no views on foreign
memory, and in which the allocator never fails inside `arrT::alloc` (it may fail in constructors
and in `resize`). -/
def OkProg : List (Op T) → Vals T → Prop
  | [], _ => True
  | op :: ops, v =>
    Legal v op ∧ op.isView = false ∧ (op.oom && requests v op && op.viaAlloc) = false ∧
      OkProg ops (specStep v op).1

theorem run_ok (ops : List (Op T)) : ∀ (st : St T), Inv st → AllOwn st →
    OkProg ops (contents st) →
    ∃ st', run ops st = some (st', (specRun ops (contents st)).2) ∧ Inv st' ∧ AllOwn st' ∧
      contents st' = (specRun ops (contents st)).1 := by
  induction ops with
  | nil => intro st h hall _; exact ⟨st, rfl, h, hall, rfl⟩
  | cons op ops ih =>
    intro st h hall hok
    obtain ⟨hl, hv, hf, hrest⟩ := hok
    obtain ⟨g1, g2⟩ := good_step h op hl (by cases op <;> first | trivial | cases hv) hf
    cases hc : (op.oom && requests (contents st) op) with
    | true =>
      have hs := g1 hc
      have hspec : specStep (contents st) op = (contents st, true) := by
        unfold specStep; rw [hc, if_pos rfl]
      rw [hspec] at hrest
      obtain ⟨st', h1, h2, h3, h4⟩ := ih st h hall hrest
      refine ⟨st', ?_, h2, h3, ?_⟩
      · simp only [run, hs, h1, Option.map_some, specRun, hspec]
      · simp only [specRun, hspec]; exact h4
    | false =>
      obtain ⟨st1, hs, hi1, he⟩ := g2 hc
      obtain ⟨hall1, hc1⟩ := he hv hall
      have hspec : specStep (contents st) op = (contents st1, false) := by
        unfold specStep; rw [hc, hc1]; rfl
      rw [hspec] at hrest
      obtain ⟨st', h1, h2, h3, h4⟩ := ih st1 hi1 hall1 hrest
      refine ⟨st', ?_, h2, h3, ?_⟩
      · simp only [run, hs, h1, Option.map_some, specRun, hspec]
      · simp only [specRun, hspec]; exact h4

/-- Number of owners of an allocation: exactly one. -/
def OwnedOnce (st : St T) (p : Nat) : Prop :=
  ∃ i, (∃ o, st.objs i = some o ∧ o.own = true ∧ o.d = some p) ∧
    ∀ j o, st.objs j = some o → o.own = true → o.d = some p → j = i

theorem ownedOnce {st : St T} (h : Inv st) {p : Nat} {xs : List (Option T)}
    (hp : st.heap p = some ⟨.live, xs⟩) : OwnedOnce st p := by
  obtain ⟨i, o, h1, h2, h3⟩ := h.noLeak p xs hp
  exact ⟨i, ⟨o, h1, h2, h3⟩, fun j oj hj h4 h5 => h.distinct j i oj o p hj h1 h4 h2 h5 h3⟩

/-- **C36** (value semantics and exactly-once ownership).  Every program of constructor, destructor,
`alloc`, `allocAndFill`, `resize`, `dealloc`, assignment, `copyFrom`, `transfer`, `swap`, `fill` and
element writes on any number of arrays runs without undefined behaviour (in particular no double
free, use after free or out-of-bounds access); it throws exactly where the specification says,
and afterwards the contents seen through the public interface are those of value semantics; every
allocation alive is owned by exactly one object; when no object is left no allocation is left. -/
theorem C36_value_semantics_partial (ops : List (Op T)) (hok : OkProg ops (fun _ => none)) :
    ∃ st, run ops St.init = some (st, (specRun ops (fun _ => none)).2) ∧
      (∀ i, contents st i = (specRun ops (fun _ => none)).1 i) ∧
      (∀ p xs, st.heap p = some ⟨.live, xs⟩ → OwnedOnce st p) ∧
      ((∀ i, (specRun ops (fun _ => none)).1 i = none) →
        ∀ p xs, st.heap p ≠ some ⟨.live, xs⟩) := by
  have h0 : contents (St.init : St T) = fun _ => none := by funext i; rfl
  obtain ⟨st, h1, h2, -, h4⟩ := run_ok ops St.init inv_init allOwn_init (by rw [h0]; exact hok)
  rw [h0] at h1 h4
  refine ⟨st, h1, fun i => by rw [h4], fun p xs hp => ownedOnce h2 hp, ?_⟩
  intro hn p xs hp
  obtain ⟨i, o, h5, -⟩ := h2.noLeak p xs hp
  have := hn i
  rw [← h4, contents_of h2 h5] at this
  cases this

/-- Programs with views, legality judged along the actual run. -/
def OkRun : List (Op T) → St T → Prop
  | [], _ => True
  | op :: ops, st =>
    Legal (contents st) op ∧ ViewOk st op ∧
      (op.oom && requests (contents st) op && op.viaAlloc) = false ∧
      ∀ st', (step op st = .ok () st' ∨ step op st = .exc st') → OkRun ops st'

/-- Memory of the caller on which views may be constructed. -/
def St.withMemory (mem : List (List (Option T))) : St T :=
  ⟨fun p => mem[p]?.map fun xs => ⟨.ext, xs⟩, mem.length, fun _ => none⟩

theorem inv_withMemory (mem : List (List (Option T))) : Inv (St.withMemory mem) := by
  refine ⟨?_, ?_, ?_, ?_⟩
  · intro p hp
    simp only [St.withMemory] at hp ⊢
    rw [List.getElem?_eq_none hp]; rfl
  · intro i o h; cases h
  · intro i j oi oj p h; cases h
  · intro p xs h
    simp only [St.withMemory] at h
    cases h1 : mem[p]? with
    | none => rw [h1] at h; cases h
    | some ys => rw [h1] at h; cases h

/-- **C36** (memory safety with views).  The same for programs that also construct arrays on
memory of the caller: no undefined behaviour, every allocation is owned once. -/
theorem C36_memory_safe_partial (mem : List (List (Option T))) (ops : List (Op T))
    (hok : OkRun ops (St.withMemory mem)) :
    ∃ r, run ops (St.withMemory mem) = some r ∧
      ∀ p xs, r.1.heap p = some ⟨.live, xs⟩ → OwnedOnce r.1 p := by
  have key : ∀ (ops : List (Op T)) (st : St T), Inv st → OkRun ops st →
      ∃ r, run ops st = some r ∧ Inv r.1 := by
    intro ops
    induction ops with
    | nil => intro st h _; exact ⟨_, rfl, h⟩
    | cons op ops ih =>
      intro st h hok
      obtain ⟨hl, hv, hf, hrest⟩ := hok
      obtain ⟨g1, g2⟩ := good_step h op hl hv hf
      cases hc : (op.oom && requests (contents st) op) with
      | true =>
        have hs := g1 hc
        obtain ⟨r, h1, h2⟩ := ih st h (hrest st (Or.inr hs))
        exact ⟨(r.1, true :: r.2), by simp only [run, hs, h1, Option.map_some], h2⟩
      | false =>
        obtain ⟨st1, hs, hi1, -⟩ := g2 hc
        obtain ⟨r, h1, h2⟩ := ih st1 hi1 (hrest st1 (Or.inl hs))
        exact ⟨(r.1, false :: r.2), by simp only [run, hs, h1, Option.map_some], h2⟩
  obtain ⟨r, h1, h2⟩ := key ops _ (inv_withMemory mem) hok
  exact ⟨r, h1, fun p xs hp => ownedOnce h2 hp⟩

/-! ## Failure inside `alloc` -/

/-- The state left behind when the allocator fails inside `alloc`: the object keeps the freed
pointer. -/
theorem alloc_failure {st : St T} (h : Inv st) {i : Nat} {o : Obj} (hi : st.objs i = some o)
    (ho : o.own = true) (hn : o.s ≠ 0) (sz : Nat) (h0 : sz ≠ 0) (hs : sz ≠ o.s) :
    ∃ st' p, alloc true i sz st = .exc st' ∧ st'.objs i = some ⟨sz, some p, true⟩ ∧
      st'.heap p = some ⟨.freed, []⟩ := by
  have hok := h.objOk i o hi
  cases hd : o.d with
  | none => unfold ObjOk at hok; rw [hd] at hok; exact absurd hok hn
  | some p =>
    refine ⟨_, p, alloc_exc h hi true sz (by simp [h0, hs]), ?_, ?_⟩
    · simp [hd, ho]
    · simp [freed, hd, ho]

/-- **C36 fails for a failed allocation inside `alloc`** (also reached through `allocAndFill`,
assignment and `copyFrom`): if the allocator throws while a non-empty array is being re-allocated,
the array keeps the pointer to the memory already freed, so its destructor frees it a second time
(and any element access is a use after free). -/
theorem C36_alloc_failure_double_free (n m : Nat) (hn : n ≠ 0) (hm : m ≠ 0) (hnm : m ≠ n) (v : T) :
    run [.ctor false 0 n, .alloc true 0 m, .dtor 0] (St.init : St T) = none ∧
    run [.ctor false 0 n, .allocAndFill true 0 m v, .dtor 0] (St.init : St T) = none ∧
    run [.ctor false 0 n, .ctor false 1 m, .assign true 0 1, .dtor 0] (St.init : St T) = none ∧
    run [.ctor false 0 n, .alloc true 0 m, .write 0 0 v] (St.init : St T) = none := by
  obtain ⟨-, g⟩ := good_ctor (inv_init (T := T)) false 0 n rfl
  obtain ⟨st, h1, h2, h3⟩ := g rfl
  obtain ⟨hall, hc⟩ := h3 rfl allOwn_init
  have hc0 : contents st 0 = some (List.replicate n none) := by
    rw [hc]; simp [effect]
  obtain ⟨o, ho⟩ := contents_ne_none (st := st) (i := 0) (by rw [hc0]; simp)
  have hos : o.s = n := by
    rw [← at_length h2 ho]; unfold vat; rw [hc0]; simp
  obtain ⟨st', p, h4, h5, h6⟩ := alloc_failure h2 ho (hall 0 o ho) (by omega) m hm (by omega)
  have hd : ∀ (s : St T), s.objs 0 = some ⟨m, some p, true⟩ → s.heap p = some ⟨.freed, []⟩ →
      dtor 0 s = .ub "delete[] of a pointer that is not a live allocation" := by
    intro s hs1 hs2
    unfold dtor
    rw [bind_ok (getO_ok hs1)]
    unfold freeIfOwn
    rw [if_pos rfl]
    apply bind_ub
    simp [stmDealloc, hs2]
  refine ⟨?_, ?_, ?_, ?_⟩
  · simp only [run, h1]
    simp only [step, h4, hd st' h5 h6, Option.map_none]
  · simp only [run, h1]
    have : step (.allocAndFill true 0 m v) st = .exc st' := by
      simp only [step, allocAndFill]; rw [bind_exc h4]
    rw [this]
    simp only [step, hd st' h5 h6, Option.map_none]
  · obtain ⟨-, g'⟩ := good_ctor h2 false 1 m (by simp [Legal, hc, effect]; rfl)
    obtain ⟨s2, k1, k2, k3⟩ := g' rfl
    obtain ⟨hall2, hc2⟩ := k3 rfl hall
    have hc20 : contents s2 0 = some (List.replicate n none) := by
      rw [hc2]; simp only [effect]; rw [Function.update_of_ne (by omega), hc0]
    have hc21 : contents s2 1 = some (List.replicate m none) := by
      rw [hc2]; simp [effect]
    obtain ⟨o0, ho0⟩ := contents_ne_none (st := s2) (i := 0) (by rw [hc20]; simp)
    obtain ⟨o1, ho1⟩ := contents_ne_none (st := s2) (i := 1) (by rw [hc21]; simp)
    have hos0 : o0.s = n := by
      rw [← at_length k2 ho0]; unfold vat; rw [hc20]; simp
    have hos1 : o1.s = m := by
      rw [← at_length k2 ho1]; unfold vat; rw [hc21]; simp
    obtain ⟨s3, q, j4, j5, j6⟩ := alloc_failure k2 ho0 (hall2 0 o0 ho0) (by omega) m hm (by omega)
    simp only [run, h1, k1]
    have hs : step (.assign true 0 1) s2 = .exc s3 := by
      simp only [step, assign]
      rw [if_neg (by omega), bind_ok (getO_ok ho1), hos1, bind_exc j4]
    have hd3 : step (.dtor 0) s3 = .ub "delete[] of a pointer that is not a live allocation" := by
      simp only [step]
      unfold dtor
      rw [bind_ok (getO_ok j5)]
      unfold freeIfOwn
      rw [if_pos rfl]
      apply bind_ub
      simp [stmDealloc, j6]
    simp only [hs, hd3, Option.map_none]
  · simp only [run, h1]
    simp only [step, h4]
    have : write 0 0 v st' = .ub "use after free" := by
      unfold write
      rw [bind_ok (getO_ok h5)]
      simp [store, h6]
    rw [this]
    rfl

/-- A program whose statements respect lifetimes and index bounds and which constructs no views on foreign memory; the
allocator may fail anywhere. -/
def LegalProg : List (Op T) → Vals T → Prop
  | [], _ => True
  | op :: ops, v => Legal v op ∧ op.isView = false ∧ LegalProg ops (specStep v op).1

/-- C36 as stated: every such program runs without undefined behaviour and follows value semantics (a failed allocation leaves
the values unchanged). -/
def C36_Full : Prop :=
  ∀ (ops : List (Op ℕ)), LegalProg ops (fun _ => none) →
    ∃ st, run ops St.init = some (st, (specRun ops (fun _ => none)).2) ∧ ∀ i, contents st i = (specRun ops (fun _ => none)).1 i

theorem C36_full_refuted : ¬ C36_Full := by
  intro h
  obtain ⟨st, h1, -⟩ := h [.ctor false 0 1, .alloc true 0 2, .dtor 0] (by
    simp [LegalProg, Legal, specStep, effect, requests, Op.oom, Op.isView, vat])
  rw [(C36_alloc_failure_double_free 1 2 (by decide) (by decide) (by decide) 0).1] at h1
  cases h1

/-! ## Concrete case -/

/-- A program of the kind covered by `C36_value_semantics_partial`, with failing allocations where they are
handled, moves and copies. -/
def demo : List (Op Nat) :=
  [.ctorFill false 0 3 7, .ctorCopy false 1 0, .write 0 1 5, .resize true 0 9, .resize false 0 4,
   .ctor true 2 6, .ctor0 2, .transfer 2 0, .swap 1 2, .assign false 0 1, .dealloc 1,
   .alloc false 1 2, .dtor 0, .dtor 2]

example : OkProg demo (fun _ => none) := by
  simp [demo, OkProg, Legal, specStep, effect, requests, Op.oom, Op.viaAlloc, Op.isView, vat,
    Function.update_apply]

example : (specRun demo (fun _ => none)).1 1 = some [none, none] := by
  simp [demo, specRun, specStep, effect, requests, Op.oom, vat, Function.update_apply]

example : (specRun demo (fun _ => none)).2 =
    [false, false, false, true, false, true, false, false, false, false, false, false, false, false]
    := by
  simp [demo, specRun, specStep, effect, requests, Op.oom, vat, Function.update_apply]

/-- A view of caller memory that is written through and destroyed. -/
example : OkRun [.ctorView 0 0 2, .write 0 1 9, .dtor 0]
    (St.withMemory [[some 1, some 2, some 3]]) := by
  refine ⟨rfl, ⟨_, rfl, by simp⟩, rfl, ?_⟩
  rintro _ (h | h)
  · cases h
    refine ⟨by simp [Legal, vat, contents, St.withMemory], trivial, rfl, ?_⟩
    rintro _ (h | h)
    · cases h
      refine ⟨by simp [Legal, contents, St.withMemory], trivial, rfl, ?_⟩
      intro _ _; trivial
    · cases h
  · cases h

end Verif.Arr
