import Verif.Fft.Main

/-!
# C84: objects of class `cfft`

Ownership of plans in levels/cxxsupport/ls_fftpack_support.h:38-86, on a heap of plans.  A plan and its work array, which are always
allocated, copied and freed together (ls_fft.c:37-72), are one block.  Objects are named by numbers.  Reading or freeing a block that is
not allocated, and calling a plan function with a null pointer, is undefined behaviour.  Arithmetic is exact.
-/

namespace Verif.Fft.Obj
open Verif Res Finset

/-! ## model -/

/-- `cfft`, ls_fftpack_support.h:38-42. -/
structure Cfft where
  n : ℕ
  plan : Option ℕ

/-- Objects, blocks, and the next address to be handed out. -/
structure St where
  objs : ℕ → Option Cfft
  heap : ℕ → Option Plan
  next : ℕ

def St.setObj (s : St) (i : ℕ) (o : Option Cfft) : St := { s with objs := Function.update s.objs i o }

/-- A new block. -/
def St.alloc (s : St) (q : Plan) : ℕ × St := (s.next, { s with heap := Function.update s.heap s.next (some q), next := s.next + 1 })

/-- `kill_complex_plan`, ls_fft.c:68-72, called as in ls_fftpack_support.h:51, 56, 66: not for a null pointer. -/
def St.kill (s : St) : Option ℕ → Res St
  | none => ok s
  | some a => match s.heap a with
    | none => ub "double free"
    | some _ => ok { s with heap := Function.update s.heap a none }

/-- `copy_complex_plan`, ls_fft.c:57-66. -/
def St.copy (s : St) : Option ℕ → Res (Option ℕ × St)
  | none => ok (none, s)
  | some a => match s.heap a with
    | none => ub "use after free"
    | some q => let r := s.alloc q; ok (some r.1, r.2)

def St.obj (s : St) (i : ℕ) : Res Cfft := match s.objs i with
  | none => ub "no object"
  | some o => ok o

/-- The members of `cfft` as operations. -/
inductive Op where
  | new (i : ℕ)
  | newSize (i n : ℕ)
  | newCopy (i j : ℕ)
  | assign (i j : ℕ)
  | set (i n : ℕ)
  | destroy (i : ℕ)
  | size (i : ℕ)
  | run (i : ℕ) (back : Bool) (data : List ℂ)

/-- What an operation returns. -/
inductive Out where
  | unit
  | size (n : ℕ)
  | data (xs : List ℂ)

/-- One operation. `cost` is the choice of the algorithm and `g` the contents of fresh memory (C41). -/
noncomputable def step (cost : ℕ → ℕ → Bool) (g : ℂ) (s : St) : Op → Res (Out × St)
  -- ls_fftpack_support.h:45
  | .new i => ok (.unit, s.setObj i (some ⟨0, none⟩))
  -- :46-47
  | .newSize i n => do
    let q ← makeComplexPlan cost n g
    let r := s.alloc q
    ok (.unit, r.2.setObj i (some ⟨n, some r.1⟩))
  -- :48-49
  | .newCopy i j => do
    let o ← s.obj j
    let r ← s.copy o.plan
    ok (.unit, r.2.setObj i (some ⟨o.n, r.1⟩))
  -- :52-61
  | .assign i j => do
    let o ← s.obj i
    let orig ← s.obj j
    if o.n ≠ orig.n then do
      let s ← s.kill o.plan
      let orig ← s.obj j
      let r ← s.copy orig.plan
      ok (.unit, r.2.setObj i (some ⟨orig.n, r.1⟩))
    else ok (.unit, s)
  -- :62-68
  | .set i n => do
    let o ← s.obj i
    if o.n = n then ok (.unit, s)
    else do
      let s ← s.kill o.plan
      let q ← makeComplexPlan cost n g
      let r := s.alloc q
      ok (.unit, r.2.setObj i (some ⟨n, some r.1⟩))
  -- :50-51
  | .destroy i => do
    let o ← s.obj i
    let s ← s.kill o.plan
    ok (.unit, s.setObj i none)
  -- :70-71
  | .size i => do
    let o ← s.obj i
    ok (.size o.n, s)
  -- :73-85
  | .run i back data => do
    let o ← s.obj i
    match o.plan with
    | none => ub "null pointer"
    | some a => match s.heap a with
      | none => ub "use after free"
      | some q => do
        let r ← q.exec back data
        ok (.data r.1, { s with heap := Function.update s.heap a (some r.2) })

noncomputable def runAll (cost : ℕ → ℕ → Bool) (g : ℂ) : St → List Op → Res (List Out × St)
  | s, [] => ok ([], s)
  | s, op :: ops => do
    let r ← step cost g s op
    let rs ← runAll cost g r.2 ops
    ok (r.1 :: rs.1, rs.2)

/-- No objects, no blocks. -/
def St.init : St := ⟨fun _ => none, fun _ => none, 0⟩

/-! ## specification -/

/-- An object of class `cfft` is a number, its length; `none`: no such object. -/
abbrev Abs := ℕ → Option ℕ

/-- What the caller must respect: objects are created once and used between creation and destruction, lengths are those C41 is proved
for, the data has the length of the object, and an object without length is not used for a transform. -/
def Legal (a : Abs) : Op → Prop
  | .new i => a i = none
  | .newSize i n => a i = none ∧ 1 ≤ n ∧ 4 * n ≤ 3 ^ 14
  | .newCopy i j => a i = none ∧ a j ≠ none
  | .assign i j => a i ≠ none ∧ a j ≠ none
  | .set i n => a i ≠ none ∧ (a i = some n ∨ 1 ≤ n ∧ 4 * n ≤ 3 ^ 14)
  | .destroy i => a i ≠ none
  | .size i => a i ≠ none
  | .run i _ data => a i = some data.length ∧ 1 ≤ data.length

/-- Effect on the lengths. -/
def eff (a : Abs) : Op → Abs
  | .new i => Function.update a i (some 0)
  | .newSize i n => Function.update a i (some n)
  | .newCopy i j => Function.update a i (a j)
  | .assign i j => Function.update a i (a j)
  | .set i n => Function.update a i (some n)
  | .destroy i => Function.update a i none
  | .size _ => a
  | .run _ _ _ => a

/-- Result: the length, or the discrete Fourier transform. -/
noncomputable def out (a : Abs) : Op → Out
  | .size i => .size ((a i).getD 0)
  | .run _ back data => .data (dftList back data.length data)
  | _ => .unit

def LegalAll : Abs → List Op → Prop
  | _, [] => True
  | a, op :: ops => Legal a op ∧ LegalAll (eff a op) ops

def effAll : Abs → List Op → Abs
  | a, [] => a
  | a, op :: ops => effAll (eff a op) ops

noncomputable def outAll : Abs → List Op → List Out
  | _, [] => []
  | a, op :: ops => out a op :: outAll (eff a op) ops

/-! ## proofs -/

structure Inv (s : St) (a : Abs) : Prop where
  len : ∀ i, (s.objs i).map Cfft.n = a i
  nul : ∀ i o, s.objs i = some o → o.plan = none → o.n = 0
  own : ∀ i o p, s.objs i = some o → o.plan = some p → 1 ≤ o.n ∧ ∃ q, s.heap p = some q ∧ PlanOk o.n q
  inj : ∀ i j o o' p, s.objs i = some o → s.objs j = some o' → o.plan = some p → o'.plan = some p → i = j
  owned : ∀ p, s.heap p ≠ none → ∃ i o, s.objs i = some o ∧ o.plan = some p
  fresh : ∀ p, s.next ≤ p → s.heap p = none

/-- The state between the release of an object's plan and the object's new contents. -/
structure Inv' (s : St) (a : Abs) (i : ℕ) : Prop where
  len : ∀ k, k ≠ i → (s.objs k).map Cfft.n = a k
  nul : ∀ k o, k ≠ i → s.objs k = some o → o.plan = none → o.n = 0
  own : ∀ k o p, k ≠ i → s.objs k = some o → o.plan = some p → 1 ≤ o.n ∧ ∃ q, s.heap p = some q ∧ PlanOk o.n q
  inj : ∀ k l o o' p, k ≠ i → l ≠ i → s.objs k = some o → s.objs l = some o' → o.plan = some p → o'.plan = some p → k = l
  owned : ∀ p, s.heap p ≠ none → ∃ k o, k ≠ i ∧ s.objs k = some o ∧ o.plan = some p
  fresh : ∀ p, s.next ≤ p → s.heap p = none

variable {s : St} {a : Abs}

theorem Inv.weak (h : Inv s a) {i : ℕ} (hi : ∀ o, s.objs i = some o → o.plan = none) : Inv' s a i := by
  refine ⟨fun k _ => h.len k, fun k o _ => h.nul k o, fun k o p _ => h.own k o p, fun k l o o' p _ _ => h.inj k l o o' p, fun p hp => ?_, h.fresh⟩
  obtain ⟨k, o, h1, h2⟩ := h.owned p hp
  refine ⟨k, o, fun e => ?_, h1, h2⟩
  subst e
  rw [hi o h1] at h2
  cases h2

/-- Releasing the plan of an object. -/
theorem kill_inv (h : Inv s a) {i : ℕ} {o : Cfft} (hi : s.objs i = some o) :
    ∃ s', s.kill o.plan = ok s' ∧ Inv' s' a i ∧ s'.objs = s.objs := by
  cases hp : o.plan with
  | none => exact ⟨s, rfl, h.weak (fun o' h' => by rw [hi] at h'; cases h'; exact hp), rfl⟩
  | some p =>
    obtain ⟨_, q, hq, _⟩ := h.own i o p hi hp
    refine ⟨{ s with heap := Function.update s.heap p none }, ?_, ⟨fun k _ => h.len k, fun k o _ => h.nul k o, ?_, ?_, ?_, ?_⟩, rfl⟩
    · unfold St.kill
      dsimp only
      rw [hq]
    · intro k o' p' hk h1 h2
      obtain ⟨c1, q', c2, c3⟩ := h.own k o' p' h1 h2
      refine ⟨c1, q', ?_, c3⟩
      dsimp only
      rw [Function.update_of_ne (fun e : p' = p => hk (h.inj k i o' o p h1 hi (by rw [← e]; exact h2) hp))]
      exact c2
    · exact fun k l o o' p _ _ => h.inj k l o o' p
    · intro p' hp'
      dsimp only at hp'
      by_cases e : p' = p
      · rw [e, Function.update_self] at hp'; exact absurd rfl hp'
      · rw [Function.update_of_ne e] at hp'
        obtain ⟨k, o', h1, h2⟩ := h.owned p' hp'
        refine ⟨k, o', fun e' => ?_, h1, h2⟩
        subst e'
        rw [hi] at h1
        cases h1
        rw [hp] at h2
        cases h2
        exact e rfl
    · intro p' hp'
      dsimp only
      rw [Function.update_apply]
      split_ifs
      · rfl
      · exact h.fresh p' hp'

/-- Giving an object no plan. -/
theorem Inv'.put_none {i : ℕ} (h : Inv' s a i) : Inv (s.setObj i (some ⟨0, none⟩)) (Function.update a i (some 0)) := by
  refine ⟨fun k => ?_, fun k o hk hp => ?_, fun k o p hk hp => ?_, fun k l o o' p hk hl hp hp' => ?_, fun p hp => ?_, h.fresh⟩
  · by_cases e : k = i
    · rw [e]; simp [St.setObj]
    · simp only [St.setObj, Function.update_of_ne e]; exact h.len k e
  all_goals simp only [St.setObj] at *
  · by_cases e : k = i
    · rw [e, Function.update_self] at hk; cases hk; rfl
    · rw [Function.update_of_ne e] at hk; exact h.nul k o e hk hp
  · by_cases e : k = i
    · rw [e, Function.update_self] at hk; cases hk; cases hp
    · rw [Function.update_of_ne e] at hk; exact h.own k o p e hk hp
  · by_cases e : k = i
    · rw [e, Function.update_self] at hk; cases hk; cases hp
    by_cases e' : l = i
    · rw [e', Function.update_self] at hl; cases hl; cases hp'
    rw [Function.update_of_ne e] at hk
    rw [Function.update_of_ne e'] at hl
    exact h.inj k l o o' p e e' hk hl hp hp'
  · obtain ⟨k, o, e, h1, h2⟩ := h.owned p hp
    exact ⟨k, o, by rw [Function.update_of_ne e]; exact h1, h2⟩

/-- Destroying an object. -/
theorem Inv'.gone {i : ℕ} (h : Inv' s a i) : Inv (s.setObj i none) (Function.update a i none) := by
  refine ⟨fun k => ?_, fun k o hk hp => ?_, fun k o p hk hp => ?_, fun k l o o' p hk hl hp hp' => ?_, fun p hp => ?_, h.fresh⟩
  · by_cases e : k = i
    · rw [e]; simp [St.setObj]
    · simp only [St.setObj, Function.update_of_ne e]; exact h.len k e
  all_goals simp only [St.setObj] at *
  · by_cases e : k = i
    · rw [e, Function.update_self] at hk; cases hk
    · rw [Function.update_of_ne e] at hk; exact h.nul k o e hk hp
  · by_cases e : k = i
    · rw [e, Function.update_self] at hk; cases hk
    · rw [Function.update_of_ne e] at hk; exact h.own k o p e hk hp
  · by_cases e : k = i
    · rw [e, Function.update_self] at hk; cases hk
    by_cases e' : l = i
    · rw [e', Function.update_self] at hl; cases hl
    rw [Function.update_of_ne e] at hk
    rw [Function.update_of_ne e'] at hl
    exact h.inj k l o o' p e e' hk hl hp hp'
  · obtain ⟨k, o, e, h1, h2⟩ := h.owned p hp
    exact ⟨k, o, by rw [Function.update_of_ne e]; exact h1, h2⟩

/-- Giving an object a new plan. -/
theorem Inv'.put_new {i n : ℕ} (h : Inv' s a i) (h1 : 1 ≤ n) {q : Plan} (hq : PlanOk n q) :
    Inv ((s.alloc q).2.setObj i (some ⟨n, some (s.alloc q).1⟩)) (Function.update a i (some n)) := by
  have hne : ∀ k o p, k ≠ i → s.objs k = some o → o.plan = some p → p ≠ s.next := by
    intro k o p hk ho hp e
    obtain ⟨_, q', c, _⟩ := h.own k o p hk ho hp
    rw [e, h.fresh _ le_rfl] at c
    cases c
  refine ⟨fun k => ?_, fun k o hk hp => ?_, fun k o p hk hp => ?_, fun k l o o' p hk hl hp hp' => ?_, fun p hp => ?_, fun p hp => ?_⟩
  · by_cases e : k = i
    · rw [e]; simp [St.setObj, St.alloc]
    · simp only [St.setObj, St.alloc, Function.update_of_ne e]; exact h.len k e
  all_goals simp only [St.setObj, St.alloc] at *
  · by_cases e : k = i
    · rw [e, Function.update_self] at hk; cases hk; cases hp
    · rw [Function.update_of_ne e] at hk; exact h.nul k o e hk hp
  · by_cases e : k = i
    · rw [e, Function.update_self] at hk; cases hk; cases hp
      exact ⟨h1, q, by rw [Function.update_self], hq⟩
    · rw [Function.update_of_ne e] at hk
      obtain ⟨c1, q', c2, c3⟩ := h.own k o p e hk hp
      exact ⟨c1, q', by rw [Function.update_of_ne (hne k o p e hk hp)]; exact c2, c3⟩
  · by_cases e : k = i
    · rw [e, Function.update_self] at hk; cases hk
      by_cases e' : l = i
      · rw [e, e']
      · rw [Function.update_of_ne e'] at hl
        cases hp
        exact absurd rfl (hne l o' _ e' hl hp')
    · rw [Function.update_of_ne e] at hk
      by_cases e' : l = i
      · rw [e', Function.update_self] at hl; cases hl; cases hp'
        exact absurd rfl (hne k o _ e hk hp)
      · rw [Function.update_of_ne e'] at hl
        exact h.inj k l o o' p e e' hk hl hp hp'
  · by_cases e : p = s.next
    · exact ⟨i, _, by rw [Function.update_self], by rw [e]⟩
    · rw [Function.update_of_ne e] at hp
      obtain ⟨k, o, e, h1, h2⟩ := h.owned p hp
      exact ⟨k, o, by rw [Function.update_of_ne e]; exact h1, h2⟩
  · rw [Function.update_of_ne (by omega)]
    exact h.fresh p (by omega)

theorem Inv.get (h : Inv s a) {i : ℕ} (hi : a i ≠ none) : ∃ o, s.objs i = some o ∧ s.obj i = ok o ∧ a i = some o.n := by
  have hl := h.len i
  cases ho : s.objs i with
  | none => rw [ho] at hl; exact absurd hl.symm hi
  | some o =>
    rw [ho] at hl
    exact ⟨o, rfl, by unfold St.obj; rw [ho], hl.symm⟩

/-- Copying the plan of another object into object `i`. -/
theorem copy_put {i j : ℕ} (h : Inv' s a i) (hne : j ≠ i) {o : Cfft} (ho : s.objs j = some o) :
    ∃ r, s.copy o.plan = ok r ∧ Inv (r.2.setObj i (some ⟨o.n, r.1⟩)) (Function.update a i (a j)) := by
  have hl := h.len j hne
  rw [ho] at hl
  have hl : a j = some o.n := hl.symm
  rw [hl]
  cases hp : o.plan with
  | none =>
    refine ⟨(none, s), rfl, ?_⟩
    rw [h.nul j o hne ho hp]
    exact h.put_none
  | some p =>
    obtain ⟨c1, q, c2, c3⟩ := h.own j o p hne ho hp
    refine ⟨(some (s.alloc q).1, (s.alloc q).2), ?_, h.put_new c1 c3⟩
    unfold St.copy
    dsimp only
    rw [c2]

theorem step_spec (cost : ℕ → ℕ → Bool) (g : ℂ) (h : Inv s a) (op : Op) (hl : Legal a op) :
    ∃ s', step cost g s op = ok (out a op, s') ∧ Inv s' (eff a op) := by
  have dead : ∀ i, a i = none → ∀ o, s.objs i = some o → o.plan = none := by
    intro i hi o ho
    have := h.len i
    rw [ho, hi] at this
    cases this
  cases op with
  | new i => exact ⟨_, rfl, (h.weak (dead i hl)).put_none⟩
  | newSize i n =>
    obtain ⟨c0, c1, c2⟩ := hl
    obtain ⟨q, hq, hok⟩ := makeComplexPlan_spec cost n c1 c2 g
    refine ⟨(s.alloc q).2.setObj i (some ⟨n, some (s.alloc q).1⟩), ?_, (h.weak (dead i c0)).put_new c1 hok⟩
    unfold step
    dsimp only
    rw [hq, ok_bind]
    rfl
  | newCopy i j =>
    obtain ⟨c0, c1⟩ := hl
    obtain ⟨o, ho, ho', ha⟩ := h.get c1
    obtain ⟨r, hr, hinv⟩ := copy_put (h.weak (dead i c0)) (fun e => c1 (by rw [e]; exact c0)) ho
    refine ⟨_, ?_, hinv⟩
    unfold step
    dsimp only
    rw [ho', ok_bind, hr, ok_bind]
    rfl
  | assign i j =>
    obtain ⟨c0, c1⟩ := hl
    obtain ⟨o, ho, ho', ha⟩ := h.get c0
    obtain ⟨o2, ho2, ho2', ha2⟩ := h.get c1
    unfold step
    dsimp only
    rw [ho', ok_bind, ho2', ok_bind]
    by_cases e : o.n = o2.n
    · rw [if_neg (by simpa using e)]
      refine ⟨s, rfl, ?_⟩
      have : eff a (.assign i j) = a := by
        change Function.update a i (a j) = a
        rw [ha2, ← e, ← ha, Function.update_eq_self]
      rw [this]
      exact h
    · rw [if_pos e]
      obtain ⟨s', hs', hinv, hobj⟩ := kill_inv h ho
      have hij : j ≠ i := by
        intro hij
        subst hij
        rw [ho] at ho2
        cases ho2
        exact e rfl
      obtain ⟨r, hr, hinv'⟩ := copy_put hinv hij (by rw [hobj]; exact ho2)
      refine ⟨_, ?_, hinv'⟩
      rw [hs', ok_bind]
      have : s'.obj j = ok o2 := by unfold St.obj; rw [hobj, ho2]
      rw [this, ok_bind, hr, ok_bind]
      rfl
  | set i n =>
    obtain ⟨c0, c1⟩ := hl
    obtain ⟨o, ho, ho', ha⟩ := h.get c0
    unfold step
    dsimp only
    rw [ho', ok_bind]
    by_cases e : o.n = n
    · rw [if_pos e]
      refine ⟨s, rfl, ?_⟩
      have : eff a (.set i n) = a := by
        change Function.update a i (some n) = a
        rw [← e, ← ha, Function.update_eq_self]
      rw [this]
      exact h
    · rw [if_neg e]
      have c2 : 1 ≤ n ∧ 4 * n ≤ 3 ^ 14 := by
        rcases c1 with c1 | c1
        · rw [ha] at c1
          exact absurd (Option.some.inj c1) e
        · exact c1
      obtain ⟨s', hs', hinv, _⟩ := kill_inv h ho
      obtain ⟨q, hq, hok⟩ := makeComplexPlan_spec cost n c2.1 c2.2 g
      refine ⟨(s'.alloc q).2.setObj i (some ⟨n, some (s'.alloc q).1⟩), ?_, hinv.put_new c2.1 hok⟩
      rw [hs', ok_bind, hq, ok_bind]
      rfl
  | destroy i =>
    obtain ⟨o, ho, ho', ha⟩ := h.get hl
    obtain ⟨s', hs', hinv, _⟩ := kill_inv h ho
    refine ⟨_, ?_, hinv.gone⟩
    unfold step
    dsimp only
    rw [ho', ok_bind, hs', ok_bind]
    rfl
  | size i =>
    obtain ⟨o, ho, ho', ha⟩ := h.get hl
    refine ⟨s, ?_, h⟩
    unfold step out
    dsimp only
    rw [ho', ok_bind, ha]
    rfl
  | run i back data =>
    obtain ⟨c0, c1⟩ := hl
    obtain ⟨o, ho, ho', ha⟩ := h.get (by rw [c0]; simp)
    have hn : o.n = data.length := by rw [ha] at c0; exact Option.some.inj c0
    cases hp : o.plan with
    | none => have := h.nul i o ho hp; omega
    | some p =>
      obtain ⟨_, q, hq, hok⟩ := h.own i o p ho hp
      rw [hn] at hok
      obtain ⟨q', he, hok'⟩ := exec_spec back c1 hok rfl
      refine ⟨{ s with heap := Function.update s.heap p (some q') }, ?_, ?_⟩
      · unfold step out
        dsimp only
        rw [ho', ok_bind, hp]
        dsimp only
        rw [hq]
        dsimp only
        rw [he, ok_bind]
      · refine ⟨h.len, h.nul, fun k o2 p2 hk hp2 => ?_, h.inj, fun p2 hp2 => ?_, fun p2 hp2 => ?_⟩
        · obtain ⟨d1, q2, d2, d3⟩ := h.own k o2 p2 hk hp2
          refine ⟨d1, ?_⟩
          dsimp only
          by_cases e : p2 = p
          · have hik := h.inj k i o2 o p hk ho (e ▸ hp2) hp
            subst hik
            have hk : s.objs k = some o2 := hk
            rw [ho] at hk
            cases hk
            exact ⟨q', by rw [e, Function.update_self], hn ▸ hok'⟩
          · exact ⟨q2, by rw [Function.update_of_ne e]; exact d2, d3⟩
        · dsimp only at hp2
          by_cases e : p2 = p
          · exact ⟨i, o, ho, e ▸ hp⟩
          · rw [Function.update_of_ne e] at hp2
            exact h.owned p2 hp2
        · dsimp only at hp2 ⊢
          by_cases e : p2 = p
          · have := h.fresh p2 hp2
            rw [e, hq] at this
            cases this
          · rw [Function.update_of_ne e]
            exact h.fresh p2 hp2

theorem runAll_spec (cost : ℕ → ℕ → Bool) (g : ℂ) (ops : List Op) : ∀ {s : St} {a : Abs}, Inv s a → LegalAll a ops →
    ∃ s', runAll cost g s ops = ok (outAll a ops, s') ∧ Inv s' (effAll a ops) := by
  induction ops with
  | nil => intro s a h _; exact ⟨s, rfl, h⟩
  | cons op ops ih =>
    intro s a h hl
    obtain ⟨s1, h1, i1⟩ := step_spec cost g h op hl.1
    obtain ⟨s2, h2, i2⟩ := ih i1 hl.2
    refine ⟨s2, ?_, i2⟩
    unfold runAll
    rw [h1, ok_bind, h2, ok_bind]
    rfl

theorem init_inv : Inv St.init (fun _ => none) :=
  ⟨fun _ => rfl, fun _ _ h => (by cases h), fun _ _ _ h => (by cases h), fun _ _ _ _ _ h => (by cases h), fun _ h => absurd rfl h, fun _ _ => rfl⟩

/-- Every history of `cfft` objects that respects `Legal`, whichever algorithms are chosen: nothing is freed twice or used after it was
freed, every object has the length it was given or copied, and every transform is that of its data, whatever happened to other objects
(in particular to the object it was copied from). -/
theorem C84_histories (cost : ℕ → ℕ → Bool) (g : ℂ) (ops : List Op) (hl : LegalAll (fun _ => none) ops) :
    ∃ s, runAll cost g St.init ops = ok (outAll (fun _ => none) ops, s) := by
  obtain ⟨s, h, _⟩ := runAll_spec cost g ops init_inv hl
  exact ⟨s, h⟩

/-- At every point of such a history the blocks in use are exactly those of the live objects with a length, one each; when all objects
are destroyed nothing is left. -/
theorem C84_no_leak (cost : ℕ → ℕ → Bool) (g : ℂ) (ops : List Op) (hl : LegalAll (fun _ => none) ops) {os : List Out} {s : St}
    (hr : runAll cost g St.init ops = ok (os, s)) :
    (∃ f : {p // s.heap p ≠ none} ≃ {i // ∃ n, effAll (fun _ => none) ops i = some n ∧ 1 ≤ n}, True) ∧
    ((∀ i, effAll (fun _ => none) ops i = none) → ∀ p, s.heap p = none) := by
  obtain ⟨s', h, hinv⟩ := runAll_spec cost g ops init_inv hl
  rw [h] at hr
  cases hr
  refine ⟨?_, fun hd p => ?_⟩
  · have H : ∀ p : {p // s.heap p ≠ none}, ∃ i : {i // ∃ n, effAll (fun _ => none) ops i = some n ∧ 1 ≤ n},
        ∃ o, s.objs i.1 = some o ∧ o.plan = some p.1 := by
      rintro ⟨p, hp⟩
      obtain ⟨i, o, h1, h2⟩ := hinv.owned p hp
      have := hinv.len i
      rw [h1] at this
      exact ⟨⟨i, o.n, this.symm, (hinv.own i o p h1 h2).1⟩, o, h1, h2⟩
    choose f hf using H
    refine ⟨Equiv.ofBijective f ⟨fun p p' e => ?_, fun i => ?_⟩, trivial⟩
    · obtain ⟨o, h1, h2⟩ := hf p
      obtain ⟨o', h1', h2'⟩ := hf p'
      rw [← e, h1] at h1'
      cases h1'
      rw [h2] at h2'
      exact Subtype.ext (Option.some.inj h2')
    · obtain ⟨i, n, hn, h1⟩ := i
      have := hinv.len i
      cases ho : s.objs i with
      | none => rw [ho, hn] at this; cases this
      | some o =>
        rw [ho, hn] at this
        have : o.n = n := Option.some.inj this
        cases hp : o.plan with
        | none => have := hinv.nul i o ho hp; omega
        | some p =>
          obtain ⟨_, q, hq, _⟩ := hinv.own i o p ho hp
          refine ⟨⟨p, by rw [hq]; simp⟩, ?_⟩
          obtain ⟨o', g1, g2⟩ := hf ⟨p, by rw [hq]; simp⟩
          exact Subtype.ext (hinv.inj _ _ _ _ _ g1 ho g2 hp)
  · by_contra hp
    obtain ⟨i, o, h1, _⟩ := hinv.owned p hp
    have := hinv.len i
    rw [h1, hd i] at this
    cases this

/-- Without a length there is no plan: a transform on an object made by the default constructor, or copied from one, calls through a null
pointer. -/
theorem C84_no_length_undefined (cost : ℕ → ℕ → Bool) (g : ℂ) (i : ℕ) (back : Bool) (data : List ℂ) :
    (runAll cost g St.init [.new i, .run i back data]).IsUB := by
  unfold runAll runAll step
  simp only [ok_bind, St.obj, St.setObj, Function.update_self]
  exact True.intro

/-- A history with copies, assignment in both directions, resizing and transforms. -/
example : LegalAll (fun _ => none) [.newSize 0 5, .new 1, .newCopy 2 0, .assign 1 0, .run 0 true [1, 2, 3, 4, 5], .set 0 3, .destroy 0,
    .run 1 false [0, 1, 0, 0, 0], .assign 2 2, .size 2, .destroy 1, .destroy 2] := by
  simp [LegalAll, Legal, eff, Function.update_apply]

end Verif.Fft.Obj
