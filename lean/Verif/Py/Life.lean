import Mathlib.Logic.Function.Basic
import Mathlib.Data.List.Basic
import Mathlib.Data.List.Nodup
import Mathlib.Tactic.Push
import Mathlib.Tactic.SplitIfs
import Mathlib.Order.Defs.LinearOrder
import Mathlib.Order.Basic
import Mathlib.Order.Nat

/-!
# C56: lifetimes of the Python objects

python/libconviqt_wrapper/__init__.py.  The Python classes own C++ objects: `__init__` creates, `__del__` destroys
(:101-109, :233-239, :335-344, :390-399, :457-466).  CPython destroys an object at once when the last variable referring to it
is rebound or deleted (reference counting; there are no reference cycles here).  A `Convolver` keeps the *addresses* of the C++
objects of sky, beam and detector (:443-453, src/conviqt_math.cpp:112-118) but no reference to the Python objects; the array
returned by `Pointing.data()` (:409-412) refers to the storage of the C++ object but keeps no reference to the `Pointing`.

The model: variables, objects, storage blocks of pointings.  Object numbers and block numbers are never reused, so that any use of
freed memory shows as undefined behaviour.  Not modelled here: contents (see C36, C54), exceptions of constructors (C55).
-/

namespace Verif.Life

/-- Python objects.  `conv s b d`: the C++ objects whose addresses the convolver has; `pnt n blk`: number of elements and
storage; `view blk`: the array returned by `data()`. -/
inductive PObj where
  | sky
  | beam
  | det
  | conv (s b d : ℕ)
  | pnt (n : ℕ) (blk : Option ℕ)
  | view (blk : ℕ)
  deriving DecidableEq

structure St where
  vars : ℕ → Option ℕ
  objs : ℕ → Option PObj
  next : ℕ
  live : ℕ → Prop
  nblk : ℕ

def St.init : St := ⟨fun _ => none, fun _ => none, 0, fun _ => False, 0⟩

/-- The outcome of a statement. -/
inductive Out where
  | ok (s : St)
  /-- a Python exception; the state is as given -/
  | raise (s : St)
  | ub

/-- The statements.  `v` is the variable assigned. -/
inductive Op where
  | newSky (v : ℕ)
  | newBeam (v : ℕ)
  | newDet (v : ℕ)
  | newPnt (v : ℕ)
  /-- `v = Convolver(s, b, d, …)` -/
  | newConv (v s b d : ℕ)
  /-- `v = u` -/
  | assign (v u : ℕ)
  | del (v : ℕ)
  /-- `v.alloc(n)`; `mem`: the allocator succeeds -/
  | alloc (v n : ℕ) (mem : Bool)
  /-- `v = u.data()` -/
  | data (v u : ℕ)
  /-- `v.convolve(u)` -/
  | convolve (v u : ℕ)
  /-- an element of the array `v` is read or written -/
  | use (v : ℕ)

/-- The object a variable refers to. -/
def St.at (s : St) (v : ℕ) : Option PObj := (s.vars v).bind s.objs

open Classical in
/-- `__del__`: `delete` of the C++ object; `~arr()` frees the storage of a pointing (levels/cxxsupport/ls_arr.h:214); freeing
twice is undefined.  A null pointer is not freed. -/
noncomputable def destroy (s : St) (o : ℕ) : Out :=
  match s.objs o with
  | some (.pnt _ (some p)) =>
    if s.live p then .ok { s with objs := Function.update s.objs o none, live := Function.update s.live p False } else .ub
  | _ => .ok { s with objs := Function.update s.objs o none }

open Classical in
/-- `v = …` / `del v`: the variable is changed and the object it referred to is destroyed if no variable refers to it any more. -/
noncomputable def bindVar (s : St) (v : ℕ) (o : Option ℕ) : Out :=
  let s' := { s with vars := Function.update s.vars v o }
  match s.vars v with
  | none => .ok s'
  | some old => if ∃ u, s'.vars u = some old then .ok s' else destroy s' old

/-- A new object in variable `v`. -/
noncomputable def bindNew (s : St) (v : ℕ) (x : PObj) : Out :=
  bindVar { s with objs := Function.update s.objs s.next (some x), next := s.next + 1 } v (some s.next)

open Classical in
/-- `arr::alloc`, levels/cxxsupport/ls_arr.h:219-226, on object `o`: frees, then allocates; if the allocator fails the pointer
to the freed storage stays. -/
noncomputable def allocStep (s : St) (o n n' : ℕ) (blk : Option ℕ) (mem : Bool) : Out :=
  if n' = n then .ok s
  else
    match blk with
    | some p =>
      if s.live p then
        let s1 := { s with live := Function.update s.live p False }
        if n' = 0 then .ok { s1 with objs := Function.update s.objs o (some (.pnt 0 none)) }
        else if mem then .ok { s1 with objs := Function.update s.objs o (some (.pnt n' (some s.nblk))),
                                       live := Function.update s1.live s.nblk True, nblk := s.nblk + 1 }
        else .raise { s1 with objs := Function.update s.objs o (some (.pnt n' (some p))) }
      else .ub
    | none =>
      if n' = 0 then .ok { s with objs := Function.update s.objs o (some (.pnt 0 none)) }
      else if mem then .ok { s with objs := Function.update s.objs o (some (.pnt n' (some s.nblk))),
                                    live := Function.update s.live s.nblk True, nblk := s.nblk + 1 }
      else .raise { s with objs := Function.update s.objs o (some (.pnt n' none)) }

open Classical in
/-- One statement.  Using a name that is not bound to an object of the right class raises. -/
noncomputable def step (s : St) : Op → Out
  | .newSky v => bindNew s v .sky
  | .newBeam v => bindNew s v .beam
  | .newDet v => bindNew s v .det
  | .newPnt v => bindNew s v (.pnt 0 none)
  | .newConv v a b d =>
    match s.vars a, s.vars b, s.vars d with
    | some oa, some ob, some od =>
      if s.objs oa = some .sky ∧ s.objs ob = some .beam ∧ s.objs od = some .det then bindNew s v (.conv oa ob od) else .raise s
    | _, _, _ => .raise s
  | .assign v u =>
    match s.vars u with
    | some o => bindVar s v (some o)
    | none => .raise s
  | .del v =>
    match s.vars v with
    | some _ => bindVar s v none
    | none => .raise s
  | .alloc v n' mem =>
    match s.vars v with
    | some o => match s.objs o with
      | some (.pnt n blk) => allocStep s o n (n' * 5) blk mem
      | _ => .raise s
    | none => .raise s
  | .data v u =>
    match s.at u with
    | some (.pnt _ (some p)) => bindNew s v (.view p)
    | _ => .raise s
  | .convolve v u =>
    match s.at v, s.at u with
    | some (.conv a b d), some (.pnt _ blk) =>
      if s.objs a = some .sky ∧ s.objs b = some .beam ∧ s.objs d = some .det ∧ (∀ p, blk = some p → s.live p) then .ok s else .ub
    | _, _ => .raise s
  | .use v =>
    match s.at v with
    | some (.view p) => if s.live p then .ok s else .ub
    | _ => .raise s

/-- A program; exceptions are caught and it goes on.  `none`: undefined behaviour. -/
noncomputable def run (s : St) : List Op → Option St
  | [] => some s
  | o :: os => match step s o with
    | .ok s' => run s' os
    | .raise s' => run s' os
    | .ub => none

/-! ## the invariant -/

/-- No allocation fails. -/
def Op.memOk : Op → Prop
  | .alloc _ _ mem => mem = true
  | _ => True

structure Inv (s : St) : Prop where
  var : ∀ v o, s.vars v = some o → ∃ x, s.objs o = some x
  obj : ∀ o x, s.objs o = some x → o < s.next ∧ ∃ v, s.vars v = some o
  own : ∀ o n p, s.objs o = some (.pnt n (some p)) → s.live p
  uniq : ∀ o o' n n' p, s.objs o = some (.pnt n (some p)) → s.objs o' = some (.pnt n' (some p)) → o = o'
  live : ∀ p, s.live p → p < s.nblk ∧ ∃ o n, s.objs o = some (.pnt n (some p))

theorem inv_init : Inv St.init :=
  ⟨(fun _ _ h => by cases h), (fun _ _ h => by cases h), (fun _ _ _ h => by cases h), (fun _ _ _ _ _ h => by cases h),
    fun _ h => False.elim h⟩

theorem objs_update {f : ℕ → Option PObj} {o k : ℕ} {x : PObj} (h : Function.update f o none k = some x) : k ≠ o ∧ f k = some x := by
  by_cases hk : k = o
  · subst hk; rw [Function.update_self] at h; cases h
  · rw [Function.update_of_ne hk] at h; exact ⟨hk, h⟩

/-- Destroying an object no variable refers to; all other objects are referred to. -/
theorem destroy_good {s : St} {o : ℕ} (hvar : ∀ v k, s.vars v = some k → ∃ x, s.objs k = some x)
    (hobj : ∀ k x, s.objs k = some x → k < s.next ∧ (k ≠ o → ∃ v, s.vars v = some k)) (ho : ∀ v, s.vars v ≠ some o)
    (hown : ∀ k n p, s.objs k = some (.pnt n (some p)) → s.live p)
    (huniq : ∀ k k' n n' p, s.objs k = some (.pnt n (some p)) → s.objs k' = some (.pnt n' (some p)) → k = k')
    (hlive : ∀ p, s.live p → p < s.nblk ∧ ∃ k n, s.objs k = some (.pnt n (some p))) :
    ∃ s', destroy s o = .ok s' ∧ Inv s' ∧ s'.vars = s.vars ∧ s'.next = s.next ∧ (∀ k, k ≠ o → s'.objs k = s.objs k) ∧
      (∀ q, (∀ n, s.objs o ≠ some (.pnt n (some q))) → (s'.live q ↔ s.live q)) := by
  have base : ∀ lv : ℕ → Prop, (∀ p, lv p ↔ s.live p ∧ ∀ n, s.objs o ≠ some (.pnt n (some p))) →
      Inv { s with objs := Function.update s.objs o none, live := lv } := by
    intro lv hlv
    constructor
    · intro v k hv
      obtain ⟨x, hx⟩ := hvar v k hv
      have : k ≠ o := fun h => ho v (h ▸ hv)
      exact ⟨x, by simpa [Function.update_of_ne this] using hx⟩
    · intro k x hx
      obtain ⟨h1, h2⟩ := objs_update hx
      exact ⟨(hobj k x h2).1, (hobj k x h2).2 h1⟩
    · intro k n p hp
      obtain ⟨h1, h2⟩ := objs_update hp
      refine (hlv p).mpr ⟨hown k n p h2, fun n' hn' => h1 (huniq k o n n' p h2 hn')⟩
    · intro k k' n n' p h1 h2
      exact huniq k k' n n' p (objs_update h1).2 (objs_update h2).2
    · intro p hp
      obtain ⟨h1, h2⟩ := (hlv p).mp hp
      obtain ⟨h3, k, n, h4⟩ := hlive p h1
      refine ⟨h3, k, n, ?_⟩
      have : k ≠ o := fun h => h2 n (h ▸ h4)
      simpa [Function.update_of_ne this] using h4
  unfold destroy
  split
  · rename_i n p hp
    rw [if_pos (hown o n p hp)]
    refine ⟨_, rfl, base _ (fun q => ?_), rfl, rfl, fun k hk => by simp [hk], fun q hq => ?_⟩
    · by_cases hq : q = p
      · subst hq
        simp only [Function.update_self, false_iff, not_and, not_forall, not_not]
        exact fun _ => ⟨n, hp⟩
      · rw [Function.update_of_ne hq]
        refine ⟨fun h => ⟨h, fun n' hn' => ?_⟩, fun h => h.1⟩
        rw [hp] at hn'
        injection hn' with hn'
        injection hn' with _ hn'
        injection hn' with hn'
        exact hq hn'.symm
    · have : q ≠ p := fun h => hq n (h ▸ hp)
      simp only [Function.update_of_ne this]
  · rename_i hno
    refine ⟨_, rfl, base _ (fun q => ⟨fun h => ⟨h, fun n hn => hno n q hn⟩, fun h => h.1⟩), rfl, rfl, fun k hk => by simp [hk],
      fun q _ => Iff.rfl⟩

/-- A variable is (re)bound: the state before the collection satisfies the invariant except that object `fresh` need not be
referred to yet. -/
theorem bindVar_good {s : St} {v : ℕ} {o : Option ℕ} (hvar : ∀ v k, s.vars v = some k → ∃ x, s.objs k = some x)
    (hobj : ∀ k x, s.objs k = some x → k < s.next ∧ (o ≠ some k → ∃ u, s.vars u = some k))
    (ho : ∀ k, o = some k → ∃ x, s.objs k = some x)
    (hown : ∀ k n p, s.objs k = some (.pnt n (some p)) → s.live p)
    (huniq : ∀ k k' n n' p, s.objs k = some (.pnt n (some p)) → s.objs k' = some (.pnt n' (some p)) → k = k')
    (hlive : ∀ p, s.live p → p < s.nblk ∧ ∃ k n, s.objs k = some (.pnt n (some p))) :
    ∃ s', bindVar s v o = .ok s' ∧ Inv s' ∧ s'.vars = Function.update s.vars v o ∧ s'.next = s.next ∧
      (∀ k x, s'.objs k = some x ↔ s.objs k = some x ∧ ∃ u, Function.update s.vars v o u = some k) ∧
      (s.vars v = none → s'.live = s.live) := by
  have hvar' : ∀ u k, Function.update s.vars v o u = some k → ∃ x, s.objs k = some x := by
    intro u k hu
    by_cases h : u = v
    · subst h; rw [Function.update_self] at hu; exact ho k hu
    · rw [Function.update_of_ne h] at hu; exact hvar u k hu
  have href : ∀ k, (o = some k ∨ ∃ u, s.vars u = some k ∧ u ≠ v) → ∃ u, Function.update s.vars v o u = some k := by
    rintro k (h | ⟨u, hu, huv⟩)
    · exact ⟨v, by rw [Function.update_self, h]⟩
    · exact ⟨u, by rw [Function.update_of_ne huv, hu]⟩
  unfold bindVar
  dsimp only
  cases hv : s.vars v with
  | none =>
    have hall : ∀ k x, s.objs k = some x → ∃ u, Function.update s.vars v o u = some k := by
      intro k x hx
      by_cases hk : o = some k
      · exact href k (Or.inl hk)
      · obtain ⟨u, hu⟩ := (hobj k x hx).2 hk
        exact href k (Or.inr ⟨u, hu, fun h => by rw [h, hv] at hu; cases hu⟩)
    exact ⟨_, rfl, ⟨hvar', fun k x hx => ⟨(hobj k x hx).1, hall k x hx⟩, hown, huniq, hlive⟩, rfl, rfl,
      fun k x => ⟨fun hx => ⟨hx, hall k x hx⟩, fun hx => hx.1⟩, fun _ => rfl⟩
  | some old =>
    have hall : ∀ k x, s.objs k = some x → k ≠ old → ∃ u, Function.update s.vars v o u = some k := by
      intro k x hx hne
      by_cases hk : o = some k
      · exact href k (Or.inl hk)
      · obtain ⟨u, hu⟩ := (hobj k x hx).2 hk
        exact href k (Or.inr ⟨u, hu, fun h => by rw [h, hv] at hu; injection hu with hu; exact hne hu.symm⟩)
    dsimp only
    by_cases hex : ∃ u, Function.update s.vars v o u = some old
    · rw [if_pos hex]
      have hall' : ∀ k x, s.objs k = some x → ∃ u, Function.update s.vars v o u = some k := by
        intro k x hx
        by_cases hk : k = old
        · rw [hk]; exact hex
        · exact hall k x hx hk
      exact ⟨_, rfl, ⟨hvar', fun k x hx => ⟨(hobj k x hx).1, hall' k x hx⟩, hown, huniq, hlive⟩, rfl, rfl,
        fun k x => ⟨fun hx => ⟨hx, hall' k x hx⟩, fun hx => hx.1⟩, fun h => by cases h⟩
    · rw [if_neg hex]
      obtain ⟨s', h1, h2, h3, h4, h5, -⟩ := destroy_good (s := { s with vars := Function.update s.vars v o }) (o := old) hvar'
        (fun k x hx => ⟨(hobj k x hx).1, fun hne => hall k x hx hne⟩) (fun u hu => hex ⟨u, hu⟩) hown huniq hlive
      refine ⟨s', h1, h2, h3, h4, fun k x => ⟨fun hx => ?_, fun hx => ?_⟩, fun h => by cases h⟩
      · obtain ⟨u, hu⟩ := (h2.obj k x hx).2
        rw [h3] at hu
        have hne : k ≠ old := fun h => hex ⟨u, h ▸ hu⟩
        rw [h5 k hne] at hx
        exact ⟨hx, u, hu⟩
      · obtain ⟨hx, u, hu⟩ := hx
        have hne : k ≠ old := fun h => hex ⟨u, h ▸ hu⟩
        rw [h5 k hne]
        exact hx

/-- `v` is bound to an existing object, or deleted. -/
theorem bindVar_inv {s : St} (h : Inv s) (v : ℕ) (o : Option ℕ) (ho : ∀ k, o = some k → ∃ x, s.objs k = some x) :
    ∃ s', bindVar s v o = .ok s' ∧ Inv s' ∧ s'.vars = Function.update s.vars v o ∧ s'.next = s.next ∧
      (∀ k x, s'.objs k = some x ↔ s.objs k = some x ∧ ∃ u, Function.update s.vars v o u = some k) ∧
      (s.vars v = none → s'.live = s.live) :=
  bindVar_good h.var (fun k x hx => ⟨(h.obj k x hx).1, fun _ => (h.obj k x hx).2⟩) ho h.own h.uniq h.live

theorem next_none {s : St} (h : Inv s) : s.objs s.next = none := by
  cases hx : s.objs s.next with
  | none => rfl
  | some x => exact absurd (h.obj _ _ hx).1 (lt_irrefl _)

/-- `v` is bound to a new object without storage of its own. -/
theorem bindNew_inv {s : St} (h : Inv s) (v : ℕ) (x : PObj) (hx : ∀ n p, x ≠ .pnt n (some p)) :
    ∃ s', bindNew s v x = .ok s' ∧ Inv s' ∧ s'.vars = Function.update s.vars v (some s.next) ∧ s'.next = s.next + 1 ∧
      (∀ k y, s'.objs k = some y ↔ (if k = s.next then y = x else s.objs k = some y) ∧
        ∃ u, Function.update s.vars v (some s.next) u = some k) ∧ (s.vars v = none → s'.live = s.live) := by
  have hn := next_none h
  have hne : ∀ {k : ℕ} {y : PObj}, s.objs k = some y → k ≠ s.next := fun hy hk => by rw [hk, hn] at hy; cases hy
  have hup : ∀ k y, Function.update s.objs s.next (some x) k = some y ↔ (if k = s.next then y = x else s.objs k = some y) := by
    intro k y
    by_cases hk : k = s.next
    · subst hk
      rw [Function.update_self, if_pos rfl]
      exact ⟨fun h => by injection h with h; exact h.symm, fun h => by rw [h]⟩
    · rw [Function.update_of_ne hk, if_neg hk]
  have hold : ∀ k n p, Function.update s.objs s.next (some x) k = some (.pnt n (some p)) → s.objs k = some (.pnt n (some p)) := by
    intro k n p hk
    rw [hup] at hk
    by_cases hkn : k = s.next
    · rw [if_pos hkn] at hk; exact absurd hk.symm (hx n p)
    · rw [if_neg hkn] at hk; exact hk
  obtain ⟨s', h1, h2, h3, h4, h5, h6⟩ := bindVar_good
    (s := { s with objs := Function.update s.objs s.next (some x), next := s.next + 1 }) (v := v) (o := some s.next)
    (by
      intro u k hu
      obtain ⟨y, hy⟩ := h.var u k hu
      exact ⟨y, (hup k y).mpr (by rw [if_neg (hne hy)]; exact hy)⟩)
    (by
      intro k y hy
      have hy := (hup k y).mp hy
      by_cases hk : k = s.next
      · exact ⟨by rw [hk]; exact Nat.lt_succ_self _, fun hne => absurd (by rw [hk]) hne⟩
      · rw [if_neg hk] at hy
        exact ⟨Nat.lt_succ_of_lt (h.obj k y hy).1, fun _ => (h.obj k y hy).2⟩)
    (by
      intro k hk
      injection hk with hk
      exact ⟨x, (hup k x).mpr (by rw [if_pos hk.symm])⟩)
    (fun k n p hk => h.own k n p (hold k n p hk))
    (fun k k' n n' p hk hk' => h.uniq k k' n n' p (hold k n p hk) (hold k' n' p hk'))
    (fun p hp => by
      obtain ⟨q1, k, n, q2⟩ := h.live p hp
      exact ⟨q1, k, n, (hup _ _).mpr (by rw [if_neg (hne q2)]; exact q2)⟩)
  refine ⟨s', h1, h2, h3, h4, fun k y => ?_, h6⟩
  rw [h5 k y, hup]

/-- `alloc` on a pointing. -/
theorem alloc_inv {s : St} (h : Inv s) {o n n' : ℕ} {blk : Option ℕ} (ho : s.objs o = some (.pnt n blk)) :
    ∃ s', allocStep s o n n' blk true = .ok s' ∧ Inv s' ∧ s'.vars = s.vars ∧ s'.next = s.next ∧
      (∀ k, k ≠ o → s'.objs k = s.objs k) ∧ (∃ b', s'.objs o = some (.pnt n' b')) ∧
      (∀ p, s.live p → blk ≠ some p → s'.live p) := by
  have hfresh : ¬ s.live s.nblk := fun hp => absurd (h.live _ hp).1 (lt_irrefl _)
  have hup : ∀ {y : Option PObj} {k : ℕ}, k ≠ o → Function.update s.objs o y k = s.objs k := fun hk => Function.update_of_ne hk _ _
  -- the state after the storage of `o` has been replaced by `b'`
  have base : ∀ (b' : Option ℕ) (lv : ℕ → Prop) (nb : ℕ), s.nblk ≤ nb → (∀ p, b' = some p → p = s.nblk ∧ s.nblk < nb) →
      (∀ p, lv p ↔ b' = some p ∨ (s.live p ∧ blk ≠ some p)) →
      Inv { s with objs := Function.update s.objs o (some (.pnt n' b')), live := lv, nblk := nb } := by
    intro b' lv nb hnb hb hlv
    constructor
    · intro v k hv
      by_cases hk : k = o
      · subst hk; exact ⟨_, Function.update_self _ _ _⟩
      · obtain ⟨x, hx⟩ := h.var v k hv
        exact ⟨x, (hup hk).trans hx⟩
    · intro k x hx
      by_cases hk : k = o
      · subst hk; exact h.obj k _ ho
      · exact h.obj k x ((hup hk).symm.trans hx)
    · intro k m p hp
      dsimp only at hp ⊢
      by_cases hk : k = o
      · subst hk
        rw [Function.update_self] at hp
        injection hp with hp
        injection hp with _ hp
        exact (hlv p).mpr (Or.inl hp)
      · rw [hup hk] at hp
        refine (hlv p).mpr (Or.inr ⟨h.own k m p hp, fun hb => hk (h.uniq k o m n p hp (hb ▸ ho))⟩)
    · intro k k' m m' p h1 h2
      dsimp only at h1 h2
      have key : ∀ {k m : ℕ}, k ≠ o → Function.update s.objs o (some (.pnt n' b')) k = some (.pnt m (some p)) → b' ≠ some p := by
        intro k m hk hp hb'
        rw [hup hk] at hp
        have hl := h.own k m p hp
        rw [(hb p hb').1] at hl
        exact hfresh hl
      by_cases hk : k = o
      · by_cases hk' : k' = o
        · rw [hk, hk']
        · subst hk
          rw [Function.update_self] at h1
          injection h1 with h1
          injection h1 with _ h1
          exact absurd h1 (key hk' h2)
      · by_cases hk' : k' = o
        · subst hk'
          rw [Function.update_self] at h2
          injection h2 with h2
          injection h2 with _ h2
          exact absurd h2 (key hk h1)
        · rw [hup hk] at h1
          rw [hup hk'] at h2
          exact h.uniq k k' m m' p h1 h2
    · intro p hp
      rcases (hlv p).mp hp with hb' | ⟨hl, hne⟩
      · refine ⟨by rw [(hb p hb').1]; exact (hb p hb').2, o, n', ?_⟩
        dsimp only
        rw [Function.update_self, hb']
      · obtain ⟨q1, k, m, q2⟩ := h.live p hl
        refine ⟨lt_of_lt_of_le q1 hnb, k, m, ?_⟩
        have hk : k ≠ o := fun hk => hne (by
          rw [hk, ho] at q2
          injection q2 with q2
          injection q2)
        exact (hup hk).trans q2
  unfold allocStep
  by_cases hn : n' = n
  · rw [if_pos hn]
    exact ⟨s, rfl, h, rfl, rfl, fun _ _ => rfl, ⟨blk, by rw [hn]; exact ho⟩, fun p hp _ => hp⟩
  · rw [if_neg hn]
    cases blk with
    | some q =>
      have hq := h.own o n q ho
      simp only [if_pos hq]
      by_cases h0 : n' = 0
      · rw [if_pos h0]
        subst h0
        refine ⟨_, rfl, base none (Function.update s.live q False) s.nblk le_rfl (fun p hp => by cases hp) (fun p => ?_), rfl, rfl,
          fun k hk => hup hk, ⟨none, Function.update_self _ _ _⟩, fun p hp hne => ?_⟩
        · by_cases hp : p = q
          · subst hp; simp
          · rw [Function.update_of_ne hp]
            simp only [reduceCtorEq, false_or]
            exact ⟨fun hl => ⟨hl, fun h => hp (by injection h with h; exact h.symm)⟩, fun hl => hl.1⟩
        · dsimp only
          rw [Function.update_of_ne (fun h => hne (by rw [h]))]
          exact hp
      · rw [if_neg h0]
        simp only [if_true]
        refine ⟨_, rfl, base (some s.nblk) (Function.update (Function.update s.live q False) s.nblk True) (s.nblk + 1) (Nat.le_succ _)
          (fun p hp => by injection hp with hp; exact ⟨hp.symm, Nat.lt_succ_self _⟩) (fun p => ?_), rfl, rfl,
          fun k hk => hup hk, ⟨some s.nblk, Function.update_self _ _ _⟩, fun p hp hne => ?_⟩
        · by_cases hpn : p = s.nblk
          · subst hpn; simp
          · rw [Function.update_of_ne hpn]
            have : ¬ (some s.nblk = some p) := fun h => hpn (by injection h with h; exact h.symm)
            simp only [this, false_or]
            by_cases hp : p = q
            · subst hp; simp
            · rw [Function.update_of_ne hp]
              exact ⟨fun hl => ⟨hl, fun h => hp (by injection h with h; exact h.symm)⟩, fun hl => hl.1⟩
        · dsimp only
          have hpn : p ≠ s.nblk := fun h => hfresh (h ▸ hp)
          rw [Function.update_of_ne hpn, Function.update_of_ne (fun h => hne (by rw [h]))]
          exact hp
    | none =>
      dsimp only
      by_cases h0 : n' = 0
      · rw [if_pos h0]
        subst h0
        refine ⟨_, rfl, base none s.live s.nblk le_rfl (fun p hp => by cases hp) (fun p => by simp), rfl, rfl,
          fun k hk => hup hk, ⟨none, Function.update_self _ _ _⟩, fun p hp hne => hp⟩
      · rw [if_neg h0]
        simp only [if_true]
        refine ⟨_, rfl, base (some s.nblk) (Function.update s.live s.nblk True) (s.nblk + 1) (Nat.le_succ _)
          (fun p hp => by injection hp with hp; exact ⟨hp.symm, Nat.lt_succ_self _⟩) (fun p => ?_), rfl, rfl,
          fun k hk => hup hk, ⟨some s.nblk, Function.update_self _ _ _⟩, fun p hp hne => ?_⟩
        · by_cases hpn : p = s.nblk
          · subst hpn; simp
          · rw [Function.update_of_ne hpn]
            have : ¬ (some s.nblk = some p) := fun h => hpn (by injection h with h; exact h.symm)
            simp [this]
        · dsimp only
          have hpn : p ≠ s.nblk := fun h => hfresh (h ▸ hp)
          rw [Function.update_of_ne hpn]
          exact hp

/-- Statements that use the memory of other objects. -/
def Op.uses : Op → Prop
  | .convolve _ _ => True
  | .use _ => True
  | _ => False

/-- A statement keeps the invariant; only the statements of `Op.uses` can be undefined. -/
theorem step_inv {s : St} (h : Inv s) (op : Op) (hm : op.memOk) :
    (step s op = .ub → op.uses) ∧ ∀ s', (step s op = .ok s' ∨ step s op = .raise s') → Inv s' := by
  have fromOk : ∀ {r : Out} {s1 : St}, r = .ok s1 → Inv s1 → (r = .ub → op.uses) ∧ ∀ s', (r = .ok s' ∨ r = .raise s') → Inv s' := by
    intro r s1 hr hi
    refine ⟨(fun hx => by rw [hr] at hx; cases hx), fun s' hs => ?_⟩
    rcases hs with hs | hs
    · rw [hr] at hs; cases hs; exact hi
    · rw [hr] at hs; cases hs
  have fromRaise : (Out.raise s = .ub → op.uses) ∧ ∀ s', (Out.raise s = .ok s' ∨ Out.raise s = .raise s') → Inv s' := by
    refine ⟨(fun hx => by cases hx), fun s' hs => ?_⟩
    rcases hs with hs | hs
    · cases hs
    · cases hs; exact h
  have new : ∀ (v : ℕ) (x : PObj), (∀ n p, x ≠ .pnt n (some p)) →
      (bindNew s v x = .ub → op.uses) ∧ ∀ s', (bindNew s v x = .ok s' ∨ bindNew s v x = .raise s') → Inv s' := by
    intro v x hx
    obtain ⟨s1, h1, h2, -⟩ := bindNew_inv h v x hx
    exact fromOk h1 h2
  cases op with
  | newSky v => exact new v .sky (fun n p h => by cases h)
  | newBeam v => exact new v .beam (fun n p h => by cases h)
  | newDet v => exact new v .det (fun n p h => by cases h)
  | newPnt v => exact new v (.pnt 0 none) (fun n p h => by cases h)
  | newConv v a b d =>
    simp only [step]
    split
    · split
      · exact new v _ (fun n p h => by cases h)
      · exact fromRaise
    · exact fromRaise
  | assign v u =>
    simp only [step]
    split
    · rename_i o ho
      obtain ⟨s1, h1, h2, -⟩ := bindVar_inv h v (some o) (fun k hk => by injection hk with hk; rw [← hk]; exact h.var u o ho)
      exact fromOk h1 h2
    · exact fromRaise
  | del v =>
    simp only [step]
    split
    · obtain ⟨s1, h1, h2, -⟩ := bindVar_inv h v none (fun k hk => by cases hk)
      exact fromOk h1 h2
    · exact fromRaise
  | alloc v n' mem =>
    have hm : mem = true := hm
    subst hm
    simp only [step]
    split
    · split
      · rename_i o _ n blk ho
        obtain ⟨s1, h1, h2, -⟩ := alloc_inv h (n' := n' * 5) ho
        exact fromOk h1 h2
      · exact fromRaise
    · exact fromRaise
  | data v u =>
    simp only [step]
    split
    · exact new v _ (fun n p h => by cases h)
    · exact fromRaise
  | convolve v u =>
    simp only [step]
    split
    · split
      · exact fromOk rfl h
      · exact ⟨fun _ => trivial, fun s' hs => by rcases hs with hs | hs <;> cases hs⟩
    · exact fromRaise
  | use v =>
    simp only [step]
    split
    · split
      · exact fromOk rfl h
      · exact ⟨fun _ => trivial, fun s' hs => by rcases hs with hs | hs <;> cases hs⟩
    · exact fromRaise

/-- States reached by programs in which no allocation fails. -/
inductive Reach : St → Prop where
  | init : Reach St.init
  | step {s s' : St} {op : Op} (h : Reach s) (hm : op.memOk) (hs : step s op = .ok s' ∨ step s op = .raise s') : Reach s'

theorem reach_inv {s : St} (h : Reach s) : Inv s := by
  induction h with
  | init => exact inv_init
  | step _ hm hs ih => exact (step_inv ih _ hm).2 _ hs

/-! ## C56 -/

/-- **C56** (ownership): in every state reached by a program, an object exists exactly if some variable refers to it (nothing is
destroyed early and nothing leaks), and a storage block is in use exactly if it belongs to an existing `Pointing`, and then to
only one (so it is freed exactly once).  No statement except `convolve` and array access can be undefined. -/
theorem C56_ownership {s : St} (h : Reach s) :
    (∀ o, (∃ x, s.objs o = some x) ↔ ∃ v, s.vars v = some o) ∧
    (∀ p, s.live p ↔ ∃ o n, s.objs o = some (.pnt n (some p))) ∧
    (∀ o o' n n' p, s.objs o = some (.pnt n (some p)) → s.objs o' = some (.pnt n' (some p)) → o = o') ∧
    (∀ op, op.memOk → ¬op.uses → step s op ≠ .ub) := by
  have hi := reach_inv h
  refine ⟨fun o => ⟨fun ⟨x, hx⟩ => (hi.obj o x hx).2, fun ⟨v, hv⟩ => hi.var v o hv⟩,
    fun p => ⟨fun hp => (hi.live p hp).2, fun ⟨o, n, ho⟩ => hi.own o n p ho⟩, hi.uniq, fun op hm hu hx => hu ((step_inv hi op hm).1 hx)⟩

/-- Object kinds never change: what was a sky stays a sky as long as it exists (object numbers are not reused). -/
def SameKind : PObj → PObj → Prop
  | .pnt _ _, .pnt _ _ => True
  | x, y => x = y

theorem sameKind_refl (x : PObj) : SameKind x x := by cases x <;> simp [SameKind]

/-- What is known of an object when it is created. -/
def Created (s : St) : PObj → Prop
  | .conv a b d => s.objs a = some .sky ∧ s.objs b = some .beam ∧ s.objs d = some .det
  | .view p => s.live p
  | .pnt _ blk => blk = none
  | _ => True

/-- How the objects of the state `s'` come from those of `s`. -/
def Evolves (s s' : St) : Prop :=
  s.next ≤ s'.next ∧ (∀ o x, o < s.next → s'.objs o = some x → ∃ y, s.objs o = some y ∧ SameKind y x) ∧
  ∀ o x, s.next ≤ o → s'.objs o = some x → Created s x

/-- What a statement can do to existing objects. -/
theorem step_kinds {s : St} (h : Inv s) (op : Op) (hm : op.memOk) {s' : St} (hs : step s op = .ok s' ∨ step s op = .raise s') :
    Evolves s s' := by
  have fromOk : ∀ {r : Out} {s1 : St}, r = .ok s1 → Evolves s s1 → (r = .ok s' ∨ r = .raise s') → Evolves s s' := by
    intro r s1 hr hi hs
    rcases hs with hs | hs
    · rw [hr] at hs; cases hs; exact hi
    · rw [hr] at hs; cases hs
  have same : Evolves s s :=
    ⟨le_rfl, fun o x _ hx => ⟨x, hx, sameKind_refl x⟩, fun o x ho hx => absurd (h.obj o x hx).1 (not_lt.mpr ho)⟩
  have fromRaise : (Out.raise s = .ok s' ∨ Out.raise s = .raise s') → Evolves s s' := by
    intro hs
    rcases hs with hs | hs
    · cases hs
    · cases hs; exact same
  have new : ∀ (v : ℕ) (x : PObj), (∀ n p, x ≠ .pnt n (some p)) → Created s x → (bindNew s v x = .ok s' ∨ bindNew s v x = .raise s') →
      Evolves s s' := by
    intro v x hx hcr
    obtain ⟨s1, h1, h2, -, h4, h5, -⟩ := bindNew_inv h v x hx
    refine fromOk h1 ⟨by omega, fun o y ho hy => ?_, fun o y ho hy => ?_⟩
    · have := ((h5 o y).mp hy).1
      rw [if_neg (by omega)] at this
      exact ⟨y, this, sameKind_refl y⟩
    · have h6 := (h2.obj o y hy).1
      have := ((h5 o y).mp hy).1
      rw [if_pos (by omega)] at this
      rw [this]
      exact hcr
  have bnd : ∀ (v : ℕ) (k : Option ℕ), (∀ j, k = some j → ∃ x, s.objs j = some x) → (bindVar s v k = .ok s' ∨ bindVar s v k = .raise s') →
      Evolves s s' := by
    intro v k hk
    obtain ⟨s1, h1, -, -, h4, h5, -⟩ := bindVar_inv h v k hk
    exact fromOk h1 ⟨by omega, fun o y ho hy => ⟨y, ((h5 o y).mp hy).1, sameKind_refl y⟩,
      fun o y ho hy => absurd (h.obj o y ((h5 o y).mp hy).1).1 (not_lt.mpr ho)⟩
  cases op with
  | newSky v => exact new v .sky (fun n p h => by cases h) trivial hs
  | newBeam v => exact new v .beam (fun n p h => by cases h) trivial hs
  | newDet v => exact new v .det (fun n p h => by cases h) trivial hs
  | newPnt v => exact new v (.pnt 0 none) (fun n p h => by cases h) rfl hs
  | newConv v a b d =>
    simp only [step] at hs
    split at hs
    · split at hs
      · rename_i oa ob od _ _ _ hc
        exact new v (.conv oa ob od) (fun n p h => by cases h) hc hs
      · exact fromRaise hs
    · exact fromRaise hs
  | assign v u =>
    simp only [step] at hs
    split at hs
    · rename_i o ho
      exact bnd v (some o) (fun k hk => by injection hk with hk; rw [← hk]; exact h.var u o ho) hs
    · exact fromRaise hs
  | del v =>
    simp only [step] at hs
    split at hs
    · exact bnd v none (fun k hk => by cases hk) hs
    · exact fromRaise hs
  | alloc v n' mem =>
    have hm : mem = true := hm
    subst hm
    simp only [step] at hs
    split at hs
    · split at hs
      · rename_i o _ _ n blk ho
        obtain ⟨s1, h1, -, -, h4, h5, ⟨b', h6⟩, -⟩ := alloc_inv h (n' := n' * 5) ho
        have hlt := (h.obj o _ ho).1
        refine fromOk h1 ⟨by omega, fun k x _ hx => ?_, fun k x hk hx => ?_⟩ hs
        · by_cases hk : k = o
          · subst hk
            rw [h6] at hx
            injection hx with hx
            rw [← hx]
            exact ⟨_, ho, trivial⟩
          · rw [h5 k hk] at hx
            exact ⟨x, hx, sameKind_refl x⟩
        · rw [h5 k (by omega)] at hx
          exact absurd (h.obj k x hx).1 (not_lt.mpr hk)
      · exact fromRaise hs
    · exact fromRaise hs
  | data v u =>
    simp only [step] at hs
    split at hs
    · rename_i n p hp
      refine new v _ (fun n p h => by cases h) ?_ hs
      obtain ⟨o, -, ho⟩ := Option.bind_eq_some_iff.mp hp
      exact h.own o n p ho
    · exact fromRaise hs
  | convolve v u =>
    simp only [step] at hs
    split at hs
    · split at hs
      · exact fromOk rfl same hs
      · rcases hs with hs | hs <;> cases hs
    · exact fromRaise hs
  | use v =>
    simp only [step] at hs
    split at hs
    · split at hs
      · exact fromOk rfl same hs
      · rcases hs with hs | hs <;> cases hs
    · exact fromRaise hs

/-- The addresses a convolver has are those of the sky, beam and detector it was made from, as long as these exist. -/
theorem reach_conv {s : St} (h : Reach s) : ∀ o a b d, s.objs o = some (.conv a b d) →
    (a < s.next ∧ b < s.next ∧ d < s.next) ∧ (∀ x, s.objs a = some x → x = .sky) ∧ (∀ x, s.objs b = some x → x = .beam) ∧
      (∀ x, s.objs d = some x → x = .det) := by
  induction h with
  | init => intro o a b d ho; cases ho
  | @step s s' op hr hm hs ih =>
    obtain ⟨e1, e2, e3⟩ := step_kinds (reach_inv hr) op hm hs
    have hi := reach_inv hr
    intro o a b d ho
    have keep : ∀ {k : ℕ} {y : PObj}, y = .sky ∨ y = .beam ∨ y = .det → (∀ x, s.objs k = some x → x = y) → k < s.next →
        ∀ x, s'.objs k = some x → x = y := by
      intro k y hy hk hlt x hx
      obtain ⟨z, hz, hzx⟩ := e2 k x hlt hx
      have := hk z hz
      subst this
      rcases hy with rfl | rfl | rfl <;> exact hzx.symm
    by_cases hlt : o < s.next
    · obtain ⟨y, hy, hyx⟩ := e2 o _ hlt ho
      have : y = .conv a b d := by cases y <;> simp [SameKind] at hyx ⊢; exact hyx
      subst this
      obtain ⟨⟨l1, l2, l3⟩, k1, k2, k3⟩ := ih o a b d hy
      exact ⟨⟨by omega, by omega, by omega⟩, keep (Or.inl rfl) k1 l1, keep (Or.inr (Or.inl rfl)) k2 l2, keep (Or.inr (Or.inr rfl)) k3 l3⟩
    · obtain ⟨c1, c2, c3⟩ := e3 o _ (not_lt.mp hlt) ho
      have l1 := (hi.obj _ _ c1).1
      have l2 := (hi.obj _ _ c2).1
      have l3 := (hi.obj _ _ c3).1
      have u : ∀ {k : ℕ} {y : PObj}, s.objs k = some y → ∀ x, s.objs k = some x → x = y := fun hk x hx => by
        rw [hk] at hx; injection hx with hx; exact hx.symm
      exact ⟨⟨by omega, by omega, by omega⟩, keep (Or.inl rfl) (u c1) l1, keep (Or.inr (Or.inl rfl)) (u c2) l2,
        keep (Or.inr (Or.inr rfl)) (u c3) l3⟩

/-- **C56** (exact condition for `convolve`): in every state reached by a program, `c.convolve(p)` accesses only existing objects
exactly if variables still refer to the sky, the beam and the detector the convolver was made from. -/
theorem C56_convolve_iff {s : St} (h : Reach s) {v u a b d n : ℕ} {blk : Option ℕ} (hv : s.at v = some (.conv a b d))
    (hu : s.at u = some (.pnt n blk)) :
    step s (.convolve v u) ≠ .ub ↔ (∃ x, s.vars x = some a) ∧ (∃ x, s.vars x = some b) ∧ ∃ x, s.vars x = some d := by
  have hi := reach_inv h
  obtain ⟨o, -, ho⟩ := Option.bind_eq_some_iff.mp hv
  obtain ⟨o', -, ho'⟩ := Option.bind_eq_some_iff.mp hu
  obtain ⟨-, k1, k2, k3⟩ := reach_conv h o a b d ho
  have hl : ∀ p, blk = some p → s.live p := fun p hp => hi.own o' n p (by rw [← hp]; exact ho')
  have e : ∀ {k : ℕ} {y : PObj}, (∀ x, s.objs k = some x → x = y) → (s.objs k = some y ↔ ∃ x, s.vars x = some k) := by
    intro k y hk
    constructor
    · intro hy; exact (hi.obj k y hy).2
    · rintro ⟨x, hx⟩
      obtain ⟨z, hz⟩ := hi.var x k hx
      rw [hz, hk z hz]
  rw [← e k1, ← e k2, ← e k3]
  simp only [step, hv, hu]
  split
  · rename_i hc
    exact ⟨fun _ => ⟨hc.1, hc.2.1, hc.2.2.1⟩, fun _ hx => by cases hx⟩
  · rename_i hc
    exact ⟨fun hx => absurd rfl hx, fun hx => absurd ⟨hx.1, hx.2.1, hx.2.2, hl⟩ hc⟩

/-- **C56** (exact condition for arrays): in every state reached by a program, an array obtained from `data()` can be accessed
exactly if a variable refers to a `Pointing` that still has the storage the array was made from (that is: the `Pointing` has not
been destroyed, nor re-allocated with another size). -/
theorem C56_view_iff {s : St} (h : Reach s) {v p : ℕ} (hv : s.at v = some (.view p)) :
    step s (.use v) ≠ .ub ↔ ∃ u n, s.at u = some (.pnt n (some p)) := by
  have hi := reach_inv h
  simp only [step, hv]
  have e : (∃ u n, s.at u = some (.pnt n (some p))) ↔ s.live p := by
    constructor
    · rintro ⟨u, n, hu⟩
      obtain ⟨o, -, ho⟩ := Option.bind_eq_some_iff.mp hu
      exact hi.own o n p ho
    · intro hl
      obtain ⟨-, o, n, ho⟩ := hi.live p hl
      obtain ⟨-, u, hu⟩ := hi.obj o _ ho
      exact ⟨u, n, by unfold St.at; rw [hu]; exact ho⟩
  rw [e]
  split
  · rename_i hl
    exact ⟨fun _ => hl, fun _ hx => by cases hx⟩
  · rename_i hl
    exact ⟨fun hx => absurd rfl hx, fun hx => absurd hx hl⟩

/-- **C56** fails when an allocation fails: if a `Pointing` that has storage is re-allocated with another size and the allocator
fails, the exception is raised, but the object keeps the address of the storage that has been freed: deleting the last variable
referring to it is undefined (double free), and so is any convolution with it. -/
theorem C56_alloc_failure {s : St} (h : Reach s) {v o n p n' : ℕ} (hv : s.vars v = some o) (ho : s.objs o = some (.pnt n (some p)))
    (hn : n' * 5 ≠ n) (h0 : n' ≠ 0) :
    ∃ s', step s (.alloc v n' false) = .raise s' ∧ s'.vars = s.vars ∧ s'.at v = some (.pnt (n' * 5) (some p)) ∧ ¬s'.live p ∧
      ((∀ u, u ≠ v → s.vars u ≠ some o) → step s' (.del v) = .ub) ∧
      (∀ c a b d, s.at c = some (.conv a b d) → step s' (.convolve c v) = .ub) := by
  have hl := (reach_inv h).own o n p ho
  refine ⟨{ s with objs := Function.update s.objs o (some (.pnt (n' * 5) (some p))), live := Function.update s.live p False }, ?_, rfl, ?_, ?_,
    fun hu => ?_, fun c a b d hc => ?_⟩
  · simp only [step, hv, ho, allocStep]
    rw [if_neg hn, if_pos hl, if_neg (by omega)]
    simp
  · simp [St.at, hv]
  · simp
  · simp only [step, hv, bindVar]
    rw [if_neg]
    · simp [destroy]
    · rintro ⟨w, hw⟩
      by_cases hwv : w = v
      · rw [hwv, Function.update_self] at hw; cases hw
      · rw [Function.update_of_ne hwv] at hw; exact hu w hwv hw
  · obtain ⟨oc, hc1, hc2⟩ := Option.bind_eq_some_iff.mp hc
    have hne : oc ≠ o := fun hx => by rw [hx, ho] at hc2; cases hc2
    have e1 : ({ s with objs := Function.update s.objs o (some (.pnt (n' * 5) (some p))), live := Function.update s.live p False } : St).at c =
        some (.conv a b d) := by simp [St.at, hc1, hne, hc2]
    have e2 : ({ s with objs := Function.update s.objs o (some (.pnt (n' * 5) (some p))), live := Function.update s.live p False } : St).at v =
        some (.pnt (n' * 5) (some p)) := by simp [St.at, hv]
    simp only [step, e1, e2]
    rw [if_neg]
    rintro ⟨-, -, -, hx⟩
    have := hx p rfl
    simp at this

/-! ## programs that are safe -/

/-- The variable a statement assigns or deletes. -/
def Op.target : Op → Option ℕ
  | .newSky v | .newBeam v | .newDet v | .newPnt v | .newConv v _ _ _ | .assign v _ | .del v | .data v _ => some v
  | _ => none

def Op.isAlloc : Op → Prop
  | .alloc _ _ _ => True
  | _ => False

def Op.isData : Op → Prop
  | .data _ _ => True
  | _ => False

/-- Programs that keep everything: every variable is assigned once (and not deleted), and after the first `data()` no pointing is
allocated any more. -/
structure Keeps (ops : List Op) : Prop where
  mem : ∀ op ∈ ops, op.memOk
  once : (ops.filterMap Op.target).Nodup
  order : ops.Pairwise (fun x y => x.isData → ¬y.isAlloc)

/-- Everything created so far exists; the arrays point to storage in use. -/
structure AllAlive (s : St) : Prop where
  inv : Inv s
  conv : ∀ o a b d, s.objs o = some (.conv a b d) → s.objs a = some .sky ∧ s.objs b = some .beam ∧ s.objs d = some .det
  view : ∀ o p, s.objs o = some (.view p) → s.live p

theorem at_obj {s : St} {v : ℕ} {x : PObj} (h : s.at v = some x) : ∃ o, s.vars v = some o ∧ s.objs o = some x :=
  Option.bind_eq_some_iff.mp h

theorem keep_bindVar {s : St} (h : AllAlive s) {v : ℕ} (hv : s.vars v = none) (o : ℕ) (ho : ∃ x, s.objs o = some x) :
    ∃ s', bindVar s v (some o) = .ok s' ∧ AllAlive s' ∧ s'.vars = Function.update s.vars v (some o) ∧ s'.objs = s.objs := by
  obtain ⟨s', h1, h2, h3, -, h5, h6⟩ := bindVar_inv h.inv v (some o) (fun k hk => by injection hk with hk; rw [← hk]; exact ho)
  have hobj : s'.objs = s.objs := by
    funext k
    cases hk : s.objs k with
    | none =>
      cases hk' : s'.objs k with
      | none => rfl
      | some x => rw [((h5 k x).mp hk').1] at hk; cases hk
    | some x =>
      obtain ⟨u, hu⟩ := (h.inv.obj k x hk).2
      exact (h5 k x).mpr ⟨hk, u, by rw [Function.update_of_ne (fun hx => by rw [hx, hv] at hu; cases hu)]; exact hu⟩
  refine ⟨s', h1, ⟨h2, fun k a b d hk => ?_, fun k p hk => ?_⟩, h3, hobj⟩
  · rw [hobj] at hk ⊢
    exact h.conv k a b d hk
  · rw [hobj] at hk
    rw [h6 hv]
    exact h.view k p hk

theorem keep_bindNew {s : St} (h : AllAlive s) {v : ℕ} (hv : s.vars v = none) (x : PObj) (hx : ∀ n p, x ≠ .pnt n (some p))
    (hcr : Created s x) :
    ∃ s', bindNew s v x = .ok s' ∧ AllAlive s' ∧ s'.vars = Function.update s.vars v (some s.next) ∧
      (∀ o p, s'.objs o = some (.view p) → (∃ o, s.objs o = some (.view p)) ∨ x = .view p) := by
  obtain ⟨s', h1, h2, h3, -, h5, h6⟩ := bindNew_inv h.inv v x hx
  have old : ∀ {k : ℕ} {y : PObj}, s.objs k = some y → s'.objs k = some y := by
    intro k y hy
    have hne : k ≠ s.next := fun hk => by rw [hk, next_none h.inv] at hy; cases hy
    obtain ⟨u, hu⟩ := (h.inv.obj k y hy).2
    exact (h5 k y).mpr ⟨by rw [if_neg hne]; exact hy, u, by
      rw [Function.update_of_ne (fun hx => by rw [hx, hv] at hu; cases hu)]; exact hu⟩
  refine ⟨s', h1, ⟨h2, fun k a b d hk => ?_, fun k p hk => ?_⟩, h3, fun k p hk => ?_⟩
  · have := ((h5 k _).mp hk).1
    by_cases hkn : k = s.next
    · rw [if_pos hkn] at this
      rw [← this] at hcr
      exact ⟨old hcr.1, old hcr.2.1, old hcr.2.2⟩
    · rw [if_neg hkn] at this
      obtain ⟨q1, q2, q3⟩ := h.conv k a b d this
      exact ⟨old q1, old q2, old q3⟩
  · rw [h6 hv]
    have := ((h5 k _).mp hk).1
    by_cases hkn : k = s.next
    · rw [if_pos hkn] at this
      rw [← this] at hcr
      exact hcr
    · rw [if_neg hkn] at this
      exact h.view k p this
  · have := ((h5 k _).mp hk).1
    by_cases hkn : k = s.next
    · rw [if_pos hkn] at this
      exact Or.inr this.symm
    · rw [if_neg hkn] at this
      exact Or.inl ⟨k, this⟩

/-- One statement of a program that keeps everything. -/
theorem keep_step {s : St} (h : AllAlive s) (op : Op) (hm : op.memOk) (ht : ∀ v, op.target = some v → s.vars v = none)
    (ha : op.isAlloc → ∀ o p, s.objs o ≠ some (.view p)) :
    ∃ s', (step s op = .ok s' ∨ step s op = .raise s') ∧ AllAlive s' ∧
      (∀ v, op.target ≠ some v → s'.vars v = s.vars v) ∧
      (¬op.isData → ∀ o p, s'.objs o = some (.view p) → ∃ o, s.objs o = some (.view p)) := by
  have triv : ∃ s', (Out.raise s = .ok s' ∨ Out.raise s = .raise s') ∧ AllAlive s' ∧ (∀ v, op.target ≠ some v → s'.vars v = s.vars v) ∧
      (¬op.isData → ∀ o p, s'.objs o = some (.view p) → ∃ o, s.objs o = some (.view p)) :=
    ⟨s, Or.inr rfl, h, fun _ _ => rfl, fun _ o p ho => ⟨o, ho⟩⟩
  have same : ∃ s', (Out.ok s = .ok s' ∨ Out.ok s = .raise s') ∧ AllAlive s' ∧ (∀ v, op.target ≠ some v → s'.vars v = s.vars v) ∧
      (¬op.isData → ∀ o p, s'.objs o = some (.view p) → ∃ o, s.objs o = some (.view p)) :=
    ⟨s, Or.inl rfl, h, fun _ _ => rfl, fun _ o p ho => ⟨o, ho⟩⟩
  have new : ∀ (v : ℕ) (x : PObj), op.target = some v → (∀ n p, x ≠ .pnt n (some p)) → Created s x →
      (¬op.isData → ∀ p, x ≠ .view p) →
      ∃ s', (bindNew s v x = .ok s' ∨ bindNew s v x = .raise s') ∧ AllAlive s' ∧ (∀ v, op.target ≠ some v → s'.vars v = s.vars v) ∧
        (¬op.isData → ∀ o p, s'.objs o = some (.view p) → ∃ o, s.objs o = some (.view p)) := by
    intro v x hv hx hcr hd
    obtain ⟨s', h1, h2, h3, h4⟩ := keep_bindNew h (ht v hv) x hx hcr
    refine ⟨s', Or.inl h1, h2, fun u hu => ?_, fun hnd o p ho => ?_⟩
    · rw [h3, Function.update_of_ne (fun hx => hu (by rw [hx]; exact hv))]
    · rcases h4 o p ho with h5 | h5
      · exact h5
      · exact absurd h5 (hd hnd p)
  cases op with
  | newSky v => exact new v .sky rfl (fun n p h => by cases h) trivial (fun _ p h => by cases h)
  | newBeam v => exact new v .beam rfl (fun n p h => by cases h) trivial (fun _ p h => by cases h)
  | newDet v => exact new v .det rfl (fun n p h => by cases h) trivial (fun _ p h => by cases h)
  | newPnt v => exact new v (.pnt 0 none) rfl (fun n p h => by cases h) rfl (fun _ p h => by cases h)
  | newConv v a b d =>
    simp only [step]
    split
    · split
      · rename_i oa ob od _ _ _ hc
        exact new v (.conv oa ob od) rfl (fun n p h => by cases h) hc (fun _ p h => by cases h)
      · exact triv
    · exact triv
  | assign v u =>
    simp only [step]
    split
    · rename_i o ho
      obtain ⟨s', h1, h2, h3, h4⟩ := keep_bindVar h (ht v rfl) o (h.inv.var u o ho)
      refine ⟨s', Or.inl h1, h2, fun w hw => ?_, fun _ k p hk => ⟨k, by rw [← h4]; exact hk⟩⟩
      rw [h3, Function.update_of_ne (fun hx => hw (by rw [hx]; rfl))]
    · exact triv
  | del v =>
    simp only [step]
    rw [ht v rfl]
    exact triv
  | alloc v n' mem =>
    have hm : mem = true := hm
    subst hm
    simp only [step]
    split
    · split
      · rename_i o _ _ n blk ho
        obtain ⟨s1, h1, h2, h3, h4, h5, ⟨b', h6⟩, h7⟩ := alloc_inv h.inv (n' := n' * 5) ho
        have hv := ha trivial
        have old : ∀ {k : ℕ} {y : PObj}, s.objs k = some y → (∀ n b, y ≠ .pnt n b) → s1.objs k = some y := by
          intro k y hy hne
          rw [h5 k (fun hk => by rw [hk, ho] at hy; injection hy with hy; exact hne _ _ hy.symm)]
          exact hy
        have back : ∀ {k : ℕ} {y : PObj}, s1.objs k = some y → (∀ n b, y ≠ .pnt n b) → s.objs k = some y := by
          intro k y hy hne
          by_cases hk : k = o
          · rw [hk, h6] at hy; injection hy with hy; exact absurd hy.symm (hne _ _)
          · rw [← h5 k hk]; exact hy
        refine ⟨s1, Or.inl h1, ⟨h2, fun k a b d hk => ?_, fun k p hk => ?_⟩, fun w _ => by rw [h3], fun _ k p hk => ?_⟩
        · obtain ⟨q1, q2, q3⟩ := h.conv k a b d (back hk (fun n b h => by cases h))
          exact ⟨old q1 (fun n b h => by cases h), old q2 (fun n b h => by cases h), old q3 (fun n b h => by cases h)⟩
        · exact absurd (back hk (fun n b h => by cases h)) (hv k p)
        · exact ⟨k, back hk (fun n b h => by cases h)⟩
      · exact triv
    · exact triv
  | data v u =>
    simp only [step]
    split
    · rename_i n p hp
      obtain ⟨o, -, ho⟩ := at_obj hp
      exact new v _ rfl (fun n p h => by cases h) (h.inv.own o n p ho) (fun hd => absurd trivial hd)
    · exact triv
  | convolve v u =>
    simp only [step]
    split
    · rename_i a b d n blk hv hu
      obtain ⟨o, -, ho⟩ := at_obj hv
      obtain ⟨o', -, ho'⟩ := at_obj hu
      obtain ⟨q1, q2, q3⟩ := h.conv o a b d ho
      rw [if_pos ⟨q1, q2, q3, fun p hp => h.inv.own o' n p (by rw [← hp]; exact ho')⟩]
      exact same
    · exact triv
  | use v =>
    simp only [step]
    split
    · rename_i p hv
      obtain ⟨o, -, ho⟩ := at_obj hv
      rw [if_pos (h.view o p ho)]
      exact same
    · exact triv

/-- **C56** (proved part): a program that assigns every variable once, deletes none, and allocates no pointing after the first
`data()` never has undefined behaviour, and everything it created exists at the end. -/
theorem C56_safe_partial (ops : List Op) (h : Keeps ops) : ∃ s, run St.init ops = some s ∧ AllAlive s := by
  have key : ∀ (ops : List Op) (s : St), AllAlive s → Keeps ops → (∀ v ∈ ops.filterMap Op.target, s.vars v = none) →
      ((∃ o p, s.objs o = some (.view p)) → ∀ op ∈ ops, ¬op.isAlloc) → ∃ s', run s ops = some s' ∧ AllAlive s' := by
    intro ops
    induction ops with
    | nil => intro s hs _ _ _; exact ⟨s, rfl, hs⟩
    | cons op os ih =>
      intro s hs hk hv ha
      have hpw := List.pairwise_cons.mp hk.order
      have htar : ∀ v, op.target = some v → s.vars v = none ∧ v ∉ os.filterMap Op.target := by
        intro v hv'
        have e : (op :: os).filterMap Op.target = v :: os.filterMap Op.target := by rw [List.filterMap_cons, hv']
        have hn := hk.once
        rw [e] at hn hv
        exact ⟨hv v (List.mem_cons_self), (List.nodup_cons.mp hn).1⟩
      have hsub : ∀ v, v ∈ os.filterMap Op.target → v ∈ (op :: os).filterMap Op.target := by
        intro v hv'
        rw [List.filterMap_cons]
        split
        · exact hv'
        · exact List.mem_cons_of_mem _ hv'
      have hnd : (os.filterMap Op.target).Nodup := by
        have hn := hk.once
        rw [List.filterMap_cons] at hn
        split at hn
        · exact hn
        · exact (List.nodup_cons.mp hn).2
      obtain ⟨s1, h1, h2, h3, h4⟩ := keep_step hs op (hk.mem op (List.mem_cons_self)) (fun v hv' => (htar v hv').1)
        (fun hal o p ho => ha ⟨o, p, ho⟩ op (List.mem_cons_self) hal)
      obtain ⟨s2, h5, h6⟩ := ih s1 h2 ⟨fun x hx => hk.mem x (List.mem_cons_of_mem _ hx), hnd, hpw.2⟩
        (fun v hv' => by
          rw [h3 v (fun hx => (htar v hx).2 hv')]
          exact hv v (hsub v hv'))
        (fun hex x hx hal => by
          by_cases hd : op.isData
          · exact hpw.1 x hx hd hal
          · obtain ⟨o, p, ho⟩ := hex
            obtain ⟨o', ho'⟩ := h4 hd o p ho
            exact ha ⟨o', p, ho'⟩ x (List.mem_cons_of_mem _ hx) hal)
      refine ⟨s2, ?_, h6⟩
      rcases h1 with h1 | h1
      · simp only [run, h1]; exact h5
      · simp only [run, h1]; exact h5
  refine key ops St.init ⟨inv_init, fun _ _ _ _ ho => (by cases ho), fun _ _ ho => (by cases ho)⟩ h (fun _ _ => rfl) ?_
  rintro ⟨o, p, ho⟩
  cases ho

/-! ## the full statement -/

/-- C56 as stated: a program that only uses existing variables never has undefined behaviour. -/
def C56_Full : Prop := ∀ ops : List Op, (∀ op ∈ ops, op.memOk) → run St.init ops ≠ none

/-- A sky is deleted (or its variable reassigned) before the convolver made from it is used. -/
def delSky : List Op := [.newSky 0, .newBeam 1, .newDet 2, .newConv 3 0 1 2, .newPnt 4, .alloc 4 10 true, .del 0, .convolve 3 4]

/-- A pointing is re-allocated (here: with another number of rows) while an array of it is in use. -/
def staleView : List Op := [.newPnt 0, .alloc 0 10 true, .data 1 0, .alloc 0 20 true, .use 1]

/-- A pointing goes away while an array of it is in use, e.g. `arr = Pointing(10).data()`. -/
def orphanView : List Op := [.newPnt 0, .alloc 0 10 true, .data 1 0, .del 0, .use 1]

theorem C56_dangling_sky : run St.init delSky = none := by
  simp [delSky, run, step, bindNew, bindVar, destroy, allocStep, St.init, St.at]
  rw [if_neg]
  · simp [Function.update_apply]
  · rintro ⟨u, hu⟩
    simp only [Function.update_apply] at hu
    split_ifs at hu <;> simp_all

theorem C56_stale_view : run St.init staleView = none := by
  simp [staleView, run, step, bindNew, bindVar, destroy, allocStep, St.init, St.at, Function.update_apply]

theorem C56_orphan_view : run St.init orphanView = none := by
  simp [orphanView, run, step, bindNew, bindVar, destroy, allocStep, St.init, St.at]
  rw [if_neg]
  · simp [Function.update_apply]
  · rintro ⟨u, hu⟩
    simp only [Function.update_apply] at hu
    split_ifs at hu <;> simp_all

theorem C56_full_refuted : ¬ C56_Full := by
  intro h
  refine h delSky (fun op hop => ?_) C56_dangling_sky
  simp only [delSky, List.mem_cons, List.not_mem_nil, or_false] at hop
  rcases hop with rfl | rfl | rfl | rfl | rfl | rfl | rfl | rfl <;> simp [Op.memOk]

/-- A program of the kind covered by `C56_safe_partial`. -/
example : ∃ s, run St.init [.newSky 0, .newBeam 1, .newDet 2, .newConv 3 0 1 2, .newPnt 4, .alloc 4 10 true, .alloc 4 20 true, .data 5 4,
    .use 5, .convolve 3 4, .assign 6 5, .use 6] = some s ∧ AllAlive s := by
  refine C56_safe_partial _ ⟨?_, ?_, ?_⟩
  · intro op hop
    simp only [List.mem_cons, List.not_mem_nil, or_false] at hop
    rcases hop with rfl | rfl | rfl | rfl | rfl | rfl | rfl | rfl | rfl | rfl | rfl | rfl <;> simp [Op.memOk]
  · show List.Nodup [0, 1, 2, 3, 4, 5, 6]; decide
  · simp [Op.isData, Op.isAlloc]

/-- The hypotheses of `C56_convolve_iff` and `C56_view_iff` are met by reachable states. -/
example : ∃ s, Reach s ∧ s.at 3 = some (.conv 0 1 2) ∧ s.at 4 = some (.pnt 50 (some 0)) ∧ s.at 5 = some (.view 0) := by
  have r0 := Reach.init
  have r1 := Reach.step (op := .newSky 0) r0 trivial (Or.inl rfl)
  have r2 := Reach.step (op := .newBeam 1) r1 trivial (Or.inl rfl)
  have r3 := Reach.step (op := .newDet 2) r2 trivial (Or.inl rfl)
  have r4 := Reach.step (op := .newConv 3 0 1 2) r3 trivial (Or.inl (by simp only [step, St.init, Function.update_apply]; simp; rfl))
  have r5 := Reach.step (op := .newPnt 4) r4 trivial (Or.inl rfl)
  have r6 := Reach.step (op := .alloc 4 10 true) r5 rfl (Or.inl (by simp [step, St.init, Function.update_apply, allocStep]; rfl))
  have r7 := Reach.step (op := .data 5 4) r6 trivial (Or.inl (by simp [step, St.init, St.at, Function.update_apply]; rfl))
  refine ⟨_, r7, ?_, ?_, ?_⟩ <;> simp [St.at, Function.update_apply]

end Verif.Life
