import Verif.Mgr.Model
import Mathlib.Algebra.BigOperators.Fin
import Mathlib.Algebra.Order.BigOperators.Group.List
import Mathlib.Tactic.Linarith
import Mathlib.Tactic.Ring
import Mathlib.Tactic.FinCases
import Mathlib.Data.Fin.VecNotation

/-! # C68: the helpers of MPI_Manager -/

namespace Verif.Mgr
open Verif Res

variable {α β : Type} {n : ℕ}

/-! ## running -/

theorem Runs.step' {p : Fin n → Prog α β} {q : Fin n → Req α} {k : Fin n → Ans α → Prog α β} {a : Fin n → Ans α} {x : Fin n → Res β}
    (h : ∀ r, p r = .call (q r) (k r)) (hs : Step q a) (hr : Runs (fun r => k r (a r)) x) : Runs p x := by
  obtain rfl : p = fun r => .call (q r) (k r) := funext h
  exact .step q k a x hs hr

theorem Runs.fin' {p : Fin n → Prog α β} {x : Fin n → Res β} (h : ∀ r, p r = .done (x r)) : Runs p x := by
  obtain rfl : p = fun r => .done (x r) := funext h
  exact .fin x

theorem Runs.inv {p : Fin n → Prog α β} {x : Fin n → Res β} (h : Runs p x) :
    (∀ r, p r = .done (x r)) ∨ ∃ (q : Fin n → Req α) (k : Fin n → Ans α → Prog α β) (a : Fin n → Ans α),
      (∀ r, p r = .call (q r) (k r)) ∧ Step q a ∧ Runs (fun r => k r (a r)) x := by
  cases h with
  | fin => exact Or.inl (fun _ => rfl)
  | step q k a x hs hr => exact Or.inr ⟨q, k, a, fun _ => rfl, hs, hr⟩

theorem Step.gather_inv {q : Fin n → Req α} {a : Fin n → Ans α} (h : Step q a) (hn : 0 < n) (y : Fin n → ℤ)
    (hq : ∀ r, q r = .gather (y r)) : a = fun r => if r.val = 0 then .ints (List.ofFn y) else .unit := by
  have h0 := hq ⟨0, hn⟩
  cases h with
  | gather x =>
    obtain rfl : x = y := funext (fun r => Req.gather.inj (hq r))
    rfl
  | gatherv | allgather | allreduce | bcast | alltoall | alltoallInt | alltoallv | gatherOne | reduce | sendrecv => cases h0

theorem Step.alltoallInt_inv {q : Fin n → Req α} {a : Fin n → Ans α} (h : Step q a) (hn : 0 < n) (c : ℕ) (y : Fin n → List ℤ)
    (hq : ∀ r, q r = .alltoallInt c (y r)) :
    a = fun r => .ints (List.ofFn (fun s => ((y s).drop (r.val * c)).take c)).flatten := by
  have h0 := hq ⟨0, hn⟩
  cases h with
  | alltoallInt c' x =>
    obtain rfl : c' = c := (Req.alltoallInt.inj h0).1
    obtain rfl : x = y := funext (fun r => (Req.alltoallInt.inj (hq r)).2)
    rfl
  | gatherv | allgather | allreduce | bcast | alltoall | gather | alltoallv | gatherOne | reduce | sendrecv => cases h0

/-! ## offsets -/

/-- Where the segments start. -/
def starts : ℕ → List (List α) → List ℤ
  | _, [] => []
  | a, s :: l => (a : ℤ) :: starts (a + s.length) l

theorem starts_length (l : List (List α)) : ∀ a, (starts a l).length = l.length := by
  induction l with
  | nil => intro a; rfl
  | cons s l ih => intro a; simp [starts, ih]

theorem flatten_cons_length (s : List α) (l : List (List α)) : (s :: l).flatten.length = s.length + l.flatten.length := by
  simp

theorem int32_eq {m : ℕ} (h : m < 2 ^ 31) : int32 m = m := by
  unfold int32
  have h' : (m : ℤ) < 2 ^ 31 := by exact_mod_cast h
  rw [Int.emod_eq_of_lt (by positivity) (by linarith)]
  linarith

theorem addInt_eq {a b : ℕ} (h : a + b < 2 ^ 31) : addInt a b = ok ((a + b : ℕ) : ℤ) := by
  unfold addInt
  have h' : ((a + b : ℕ) : ℤ) < 2 ^ 31 := by exact_mod_cast h
  push_cast at h' ⊢
  rw [if_pos ⟨by have : (0 : ℤ) ≤ a + b := by positivity
                 linarith, h'⟩]

/-- Lengths of the segments. -/
def lens (l : List (List α)) : List ℤ := l.map (fun s => (s.length : ℤ))

theorem sumFrom_eq (l : List (List α)) : ∀ a, a + l.flatten.length < 2 ^ 31 → sumFrom a (lens l) = ok ((a + l.flatten.length : ℕ) : ℤ) := by
  induction l with
  | nil => intro a _; simp [lens, sumFrom]
  | cons s l ih =>
    intro a h
    rw [flatten_cons_length] at h
    show addInt a s.length >>= (fun b => sumFrom b (lens l)) = _
    rw [addInt_eq (by omega), ok_bind, ih _ (by omega), flatten_cons_length]
    congr 2
    omega

theorem prefixes_eq (l : List (List α)) : ∀ a, a + l.flatten.length < 2 ^ 31 → prefixes a (lens l) = ok (starts a l) := by
  induction l with
  | nil => intro a _; rfl
  | cons s l ih =>
    intro a h
    rw [flatten_cons_length] at h
    cases l with
    | nil => rfl
    | cons t l =>
      show (addInt a s.length >>= fun b => prefixes b (lens (t :: l)) >>= fun u => ok ((a : ℤ) :: u)) = _
      rw [addInt_eq (by omega), ok_bind, ih _ (by omega), ok_bind]
      rfl

theorem place_eq (l : List (List α)) : ∀ pre suf : List α, suf.length = l.flatten.length →
    place (pre ++ suf) ((starts pre.length l).zip l) = ok (pre ++ l.flatten) := by
  induction l with
  | nil =>
    intro pre suf h
    have : suf = [] := by simpa using h
    subst this
    simp [starts, place]
  | cons s l ih =>
    intro pre suf h
    rw [flatten_cons_length] at h
    show blit (pre ++ suf) (pre.length : ℤ) s >>= (fun b => place b ((starts (pre.length + s.length) l).zip l)) = _
    have hb : blit (pre ++ suf) (pre.length : ℤ) s = ok ((pre ++ s) ++ suf.drop s.length) := by
      unfold blit
      rw [if_pos ⟨Int.natCast_nonneg _, by simp; omega⟩]
      simp [List.drop_append]
    rw [hb, ok_bind]
    have := ih (pre ++ s) (suf.drop s.length) (by rw [List.length_drop]; omega)
    rw [List.length_append] at this
    rw [this]
    simp

theorem slice_eq (l : List (List α)) : ∀ (pre : List α) (i : ℕ) (s : List α), l[i]? = some s →
    ∃ o, (starts pre.length l)[i]? = some o ∧ slice (pre ++ l.flatten) o s.length = ok s := by
  induction l with
  | nil => intro pre i s h; simp at h
  | cons t l ih =>
    intro pre i s h
    cases i with
    | zero =>
      obtain rfl : t = s := by simpa using h
      refine ⟨(pre.length : ℤ), rfl, ?_⟩
      unfold slice
      rw [if_pos ⟨Int.natCast_nonneg _, Int.natCast_nonneg _, by simp⟩]
      simp
    | succ i =>
      obtain ⟨o, h1, h2⟩ := ih (pre ++ t) i s (by simpa using h)
      refine ⟨o, ?_, ?_⟩
      · rw [List.length_append] at h1
        simpa [starts] using h1
      · simpa using h2

theorem sent_eq {inp : List α} (h : inp.length < 2 ^ 31) : sent (int32 inp.length) inp = ok inp := by
  unfold sent slice
  rw [int32_eq h, if_pos ⟨le_refl _, Int.natCast_nonneg _, by simp⟩]
  simp

theorem allocInt_eq (junk : α) (m : ℕ) : allocInt junk m = ok (List.replicate m junk) := by
  unfold allocInt
  rw [if_neg (by omega)]
  simp

theorem length_le_flatten (ins : Fin n → List α) (r : Fin n) : (ins r).length ≤ (List.ofFn ins).flatten.length := by
  rw [List.length_flatten]
  refine List.single_le_sum (by simp) _ ?_
  rw [List.mem_map]
  exact ⟨ins r, by simp, rfl⟩

theorem lens_ofFn (ins : Fin n → List α) : lens (List.ofFn ins) = List.ofFn (fun r => ((ins r).length : ℤ)) := by
  unfold lens
  rw [List.map_ofFn]
  rfl

/-! ## gatherv -/

/-- What a rank does after the first step of `gatherv`. -/
theorem gatherv_after (junk : α) (ins out0 : Fin n → List α) (ht : (List.ofFn ins).flatten.length < 2 ^ 31) :
    ∃ k : Fin n → Ans α → Prog α (List α),
      (∀ r, gatherv junk r.val (ins r) (out0 r) = .call (.gather ((ins r).length : ℤ)) (k r)) ∧
      ∀ r : Fin n, k r (if r.val = 0 then .ints (List.ofFn (fun r => ((ins r).length : ℤ))) else .unit) =
        if r.val = 0 then
          (if (List.ofFn ins).flatten = [] then .done (throw "input and output buffers must not be identical")
          else .call (.gatherv (ins r) (some (List.ofFn (fun r => ((ins r).length : ℤ)), starts 0 (List.ofFn ins),
              List.replicate (List.ofFn ins).flatten.length junk))) (fun
            | .data res => .done (ok res)
            | _ => .done (ub "answer")))
        else if ins r = [] then .done (throw "input and output buffers must not be identical")
          else .call (.gatherv (ins r) none) (fun _ => .done (ok (out0 r))) := by
  have hl : ∀ r, (ins r).length < 2 ^ 31 := fun r => lt_of_le_of_lt (length_le_flatten ins r) ht
  have hcall : ∀ r : Fin n, ∃ k, gatherv junk r.val (ins r) (out0 r) = .call (.gather ((ins r).length : ℤ)) k ∧
      k (if r.val = 0 then .ints (List.ofFn (fun r => ((ins r).length : ℤ))) else .unit) =
        if r.val = 0 then
          (if (List.ofFn ins).flatten = [] then .done (throw "input and output buffers must not be identical")
          else .call (.gatherv (ins r) (some (List.ofFn (fun r => ((ins r).length : ℤ)), starts 0 (List.ofFn ins),
              List.replicate (List.ofFn ins).flatten.length junk))) (fun
            | .data res => .done (ok res)
            | _ => .done (ub "answer")))
        else if ins r = [] then .done (throw "input and output buffers must not be identical")
          else .call (.gatherv (ins r) none) (fun _ => .done (ok (out0 r))) := by
    intro r
    by_cases h0 : r.val = 0
    · unfold gatherv gathervM gathervHelper
      rw [if_pos h0, int32_eq (hl r)]
      refine ⟨_, rfl, ?_⟩
      rw [if_pos h0, if_pos h0]
      dsimp only
      have e1 : sumFrom 0 (lens (List.ofFn ins)) = ok ((0 + (List.ofFn ins).flatten.length : ℕ) : ℤ) := sumFrom_eq _ 0 (by omega)
      have e2 : prefixes 0 (lens (List.ofFn ins)) = ok (starts 0 (List.ofFn ins)) := prefixes_eq _ 0 (by omega)
      rw [← lens_ofFn, e1, ok_bind, e2, ok_bind]
      simp only [lift]
      rw [allocInt_eq, ok_bind]
      by_cases he : (List.ofFn ins).flatten = []
      · rw [if_pos he]
        have hr : ins r = [] := by
          have := length_le_flatten ins r
          rw [he] at this
          simpa using this
        simp only [unequal, he, hr, List.length_nil, zero_add, List.replicate_zero, and_self, if_true, throw_bind]
      · rw [if_neg he]
        have hne : ¬(ins r = [] ∧ List.replicate (0 + (List.ofFn ins).flatten.length) junk = []) := by
          rintro ⟨-, h2⟩
          apply he
          have := congrArg List.length h2
          rw [List.length_replicate] at this
          exact List.length_eq_zero_iff.mp (by simpa using this)
        rw [unequal, if_neg hne, ok_bind, ← int32_eq (hl r), sent_eq (hl r), ok_bind]
        simp only [zero_add]
        rfl
    · unfold gatherv gathervS
      rw [if_neg h0, int32_eq (hl r)]
      refine ⟨_, rfl, ?_⟩
      rw [if_neg h0]
      by_cases he : ins r = []
      · rw [if_pos he]
        simp only [unequal, he, and_self, if_true, throw_bind, lift]
      · rw [if_neg he]
        simp only [unequal, he, false_and, if_false, ok_bind]
        rw [← int32_eq (hl r), sent_eq (hl r)]
        rfl
  choose k h1 h2 using hcall
  exact ⟨k, h1, h2⟩

/-- **C68** (`gatherv`): if every rank but the first has something to send (and the first, if it is alone), all ranks return; the
first has the concatenation of all arrays in the order of the ranks, the others' `out` is unchanged. -/
theorem C68_gatherv_partial (junk : α) (ins out0 : Fin n → List α) (ht : (List.ofFn ins).flatten.length < 2 ^ 31)
    (hne : ∀ r : Fin n, r.val ≠ 0 → ins r ≠ []) (h1 : (List.ofFn ins).flatten ≠ []) :
    Runs (fun r : Fin n => gatherv junk r.val (ins r) (out0 r))
      (fun r => ok (if r.val = 0 then (List.ofFn ins).flatten else out0 r)) := by
  obtain ⟨k, hk, hk2⟩ := gatherv_after junk ins out0 ht
  refine Runs.step' hk (.gather _) ?_
  refine Runs.step' (q := fun r => .gatherv (ins r) (if r.val = 0 then some (List.ofFn (fun r => ((ins r).length : ℤ)),
      starts 0 (List.ofFn ins), List.replicate (List.ofFn ins).flatten.length junk) else none))
    (k := fun r => if r.val = 0 then (fun
            | .data res => .done (ok res)
            | _ => .done (ub "answer")) else (fun _ => .done (ok (out0 r))))
    (fun r => ?_) (.gatherv ins _ _ _ (List.ofFn ins).flatten rfl ?_ ?_) (Runs.fin' (fun r => ?_))
  · rw [hk2 r]
    by_cases h0 : r.val = 0
    · simp only [h0, if_true, if_neg h1]
    · simp only [h0, if_false, if_neg (hne r h0)]
  · rw [starts_length, List.length_ofFn]
  · exact place_eq (List.ofFn ins) [] _ (by simp)
  · by_cases h0 : r.val = 0
    · simp only [h0, if_true]
    · simp only [h0, if_false]

theorem Runs.gatherv_inv (junk : α) (hn : 0 < n) (ins out0 : Fin n → List α) (ht : (List.ofFn ins).flatten.length < 2 ^ 31)
    {x : Fin n → Res (List α)} (h : Runs (fun r : Fin n => gatherv junk r.val (ins r) (out0 r)) x) :
    Runs (fun r : Fin n => if r.val = 0 then
          (if (List.ofFn ins).flatten = [] then .done (throw "input and output buffers must not be identical")
          else .call (.gatherv (ins r) (some (List.ofFn (fun r => ((ins r).length : ℤ)), starts 0 (List.ofFn ins),
              List.replicate (List.ofFn ins).flatten.length junk))) (fun
            | .data res => .done (ok res)
            | _ => .done (ub "answer")))
        else if ins r = [] then .done (throw "input and output buffers must not be identical")
          else .call (.gatherv (ins r) none) (fun _ => .done (ok (out0 r)))) x := by
  obtain ⟨k, hk, hk2⟩ := gatherv_after junk ins out0 ht
  rcases h.inv with h | ⟨q, k', a, h1, h2, h3⟩
  · have := h ⟨0, hn⟩
    rw [hk] at this
    cases this
  · have hq : ∀ r, q r = .gather ((ins r).length : ℤ) := fun r => by
      have := (h1 r).symm.trans (hk r)
      exact (Prog.call.inj this).1
    have hkk : ∀ r, k' r = k r := fun r => (Prog.call.inj ((h1 r).symm.trans (hk r))).2
    obtain rfl := h2.gather_inv hn _ hq
    have : (fun r => k' r (if r.val = 0 then Ans.ints (List.ofFn (fun r => ((ins r).length : ℤ))) else .unit)) = _ :=
      funext (fun r => (congrFun (hkk r) _).trans (hk2 r))
    rw [this] at h3
    exact h3

/-- **C68** (`gatherv`, an empty array): if a rank other than the first has nothing to send while another rank has something, the call
never returns on all ranks: the rank with the empty array throws (a null pointer is taken for the same buffer as the absent
output), the others wait for it. -/
theorem C68_gatherv_empty_never_returns (junk : α) (hn : 0 < n) (ins out0 : Fin n → List α)
    (ht : (List.ofFn ins).flatten.length < 2 ^ 31) (r : Fin n) (hr : r.val ≠ 0) (he : ins r = [])
    (hs : (List.ofFn ins).flatten ≠ []) (x : Fin n → Res (List α)) :
    ¬Runs (fun r : Fin n => gatherv junk r.val (ins r) (out0 r)) x := by
  intro h
  have h2 := Runs.gatherv_inv junk hn ins out0 ht h
  rcases h2.inv with h3 | ⟨q, k, a, h3, -, -⟩
  · have := h3 ⟨0, hn⟩
    simp only [if_true, if_neg hs, reduceCtorEq] at this
  · have := h3 r
    simp only [hr, he, if_true, if_false, reduceCtorEq] at this

/-- **C68** (`gatherv`, nothing at all): every rank throws. -/
theorem C68_gatherv_nothing_throws (junk : α) (out0 : Fin n → List α) :
    Runs (fun r : Fin n => gatherv junk r.val ([] : List α) (out0 r))
      (fun _ => throw "input and output buffers must not be identical") := by
  have hf : (List.ofFn (fun _ : Fin n => ([] : List α))).flatten = [] := by simp
  obtain ⟨k, hk, hk2⟩ := gatherv_after junk (fun _ => ([] : List α)) out0 (by rw [hf]; simp)
  refine Runs.step' hk (.gather _) (Runs.fin' (fun r => ?_))
  rw [hk2 r]
  by_cases h0 : r.val = 0
  · simp only [h0, if_true, if_pos hf]
  · simp only [h0, if_false, if_true]

/-- **C68** (`gatherv`, 2^31 elements or more): summing the sizes on the first rank is a signed overflow. -/
theorem C68_gatherv_overflow (l : List (List α)) (hl : ∀ s ∈ l, s.length < 2 ^ 31) (ht : 2 ^ 31 ≤ l.flatten.length) :
    sumFrom 0 (l.map (fun s => int32 s.length)) = ub "signed overflow" := by
  have key : ∀ (l : List (List α)) (a : ℕ), (∀ s ∈ l, s.length < 2 ^ 31) → a < 2 ^ 31 → 2 ^ 31 ≤ a + l.flatten.length →
      sumFrom a (l.map (fun s => int32 s.length)) = ub "signed overflow" := by
    intro l
    induction l with
    | nil => intro a _ h1 h2; simp at h2; omega
    | cons s l ih =>
      intro a hs h1 h2
      rw [flatten_cons_length] at h2
      show addInt a (int32 s.length) >>= (fun b => sumFrom b (l.map (fun s => int32 s.length))) = _
      rw [int32_eq (hs s (by simp))]
      by_cases hc : a + s.length < 2 ^ 31
      · rw [addInt_eq hc, ok_bind]
        exact ih _ (fun t ht => hs t (by simp [ht])) hc (by omega)
      · unfold addInt
        rw [if_neg]
        · rfl
        · rintro ⟨-, h⟩
          apply hc
          exact_mod_cast h
  exact key l 0 hl (by norm_num) (by omega)

/-! ## allgather, allreduce, bcast -/

theorem unequal_ok {γ δ : Type} {a : List γ} {b : List δ} (h : a ≠ [] ∨ b ≠ []) : unequal a b = ok () := by
  unfold unequal
  rw [if_neg]
  rintro ⟨h1, h2⟩
  rcases h with h | h
  · exact h h1
  · exact h h2

/-- **C68** (`allgather`): arrays of one non-zero size: every rank has the concatenation in rank order. -/
theorem C68_allgather (junk : α) (ins : Fin n → List α) (c : ℕ) (hc : ∀ r, (ins r).length = c) (h0 : c ≠ 0) :
    Runs (fun r : Fin n => allgather junk n (ins r)) (fun _ => ok (List.ofFn ins).flatten) := by
  have hne : ∀ r, ins r ≠ [] := fun r h => h0 (by rw [← hc r, h]; rfl)
  refine Runs.step' (q := fun r => .allgather (ins r)) (k := fun _ => fun
      | .data res => .done (ok res)
      | _ => .done (ub "answer")) (fun r => ?_) (.allgather ins c hc) (Runs.fin' (fun r => rfl))
  unfold allgather
  rw [unequal_ok (Or.inl (hne r))]
  rfl

/-- **C68** (`allreduce`): every rank has the element-wise combination. -/
theorem C68_allreduce (junk : α) (op : α → α → α) (ins : Fin n → List α) (c : ℕ) (hc : ∀ r, (ins r).length = c) (h0 : c ≠ 0) :
    Runs (fun r : Fin n => allreduce junk op (ins r)) (fun _ => ok (combine op (List.ofFn ins))) := by
  have hne : ∀ r, ins r ≠ [] := fun r h => h0 (by rw [← hc r, h]; rfl)
  refine Runs.step' (q := fun r => .allreduce op (ins r)) (k := fun _ => fun
      | .data res => .done (ok res)
      | _ => .done (ub "answer")) (fun r => ?_) (.allreduce op ins c hc) (Runs.fin' (fun r => rfl))
  unfold allreduce
  rw [unequal_ok (Or.inl (hne r))]
  rfl

/-- **C68** (`bcast`): every rank has the array of the root. -/
theorem C68_bcast (root : Fin n) (data : Fin n → List α) (c : ℕ) (hc : ∀ r, (data r).length = c) :
    Runs (fun r : Fin n => bcast root.val (data r)) (fun _ => ok (data root)) :=
  Runs.step' (q := fun r => .bcast root.val (data r)) (k := fun _ => fun
      | .data res => .done (ok res)
      | _ => .done (ub "answer")) (fun _ => rfl) (.bcast root data c hc) (Runs.fin' (fun _ => rfl))

/-! ## all2all -/

theorem block_eq (c : ℕ) (l : List (List α)) (hl : ∀ s ∈ l, s.length = c) : ∀ i, (l.flatten.drop (i * c)).take c = l.getD i [] := by
  induction l with
  | nil => intro i; simp
  | cons s l ih =>
    intro i
    have hs := hl s (by simp)
    cases i with
    | zero => simp [← hs]
    | succ i =>
      have e : (i + 1) * c = s.length + i * c := by rw [hs]; ring
      rw [List.flatten_cons, e, ← List.drop_drop, List.drop_left, ih (fun t ht => hl t (by simp [ht]))]
      simp

/-- **C68** (`all2all`): when rank `s` sends the blocks `b s 0, b s 1, …` of `c` elements, rank `r` receives
`b 0 r, b 1 r, …`. -/
theorem C68_all2all (junk : α) (hn : 0 < n) (c : ℕ) (h0 : c ≠ 0) (b : Fin n → Fin n → List α) (hb : ∀ s r, (b s r).length = c) :
    Runs (fun r : Fin n => all2all junk n (List.ofFn (b r)).flatten) (fun r => ok (List.ofFn (fun s => b s r)).flatten) := by
  have hlen : ∀ r, ((List.ofFn (b r)).flatten).length = n * c := by
    intro r
    rw [List.length_flatten, List.map_ofFn, show (List.length ∘ b r) = fun _ => c from funext (fun s => hb r s)]
    simp [List.ofFn_const]
  have hblk : ∀ s r : Fin n, ((List.ofFn (b s)).flatten.drop (r.val * c)).take c = b s r := by
    intro s r
    rw [block_eq c _ (by rintro t ht; obtain ⟨i, rfl⟩ := (List.mem_ofFn' _ _).mp ht; exact hb s i)]
    simp [List.getD]
  have hne : ∀ r, (List.ofFn (b r)).flatten ≠ [] := fun r h => by
    have := hlen r
    rw [h] at this
    have h' : 0 < n * c := Nat.mul_pos hn (Nat.pos_of_ne_zero h0)
    simp at this
    omega
  refine Runs.step' (q := fun r => .alltoall c (List.ofFn (b r)).flatten) (k := fun _ => fun
      | .data res => .done (ok res)
      | _ => .done (ub "answer")) (fun r => ?_) (.alltoall c _ hlen) (Runs.fin' (fun r => ?_))
  · unfold all2all
    rw [unequal_ok (Or.inl (hne r)), hlen r, Nat.mul_mod_right, Nat.mul_div_cancel_left _ hn]
    rfl
  · simp only [hblk]

/-- **C68** (`all2all`): an array whose size is not a multiple of the number of ranks is refused before any communication. -/
theorem C68_all2all_refused (junk : α) (inp : List α) (h : inp.length % n ≠ 0) :
    all2all junk n inp = .done (throw "array size is not divisible by number of ranks") := by
  have hne : inp ≠ [] := by rintro rfl; simp at h
  unfold all2all
  rw [unequal_ok (Or.inl hne)]
  simp only [lift, if_pos h]

/-! ## all2allv_easy -/

theorem starts_last (l : List (List α)) : ∀ a, l ≠ [] →
    ∃ o c : ℕ, (starts a l).getLast? = some (o : ℤ) ∧ (lens l).getLast? = some (c : ℤ) ∧ o + c = a + l.flatten.length := by
  induction l with
  | nil => intro a h; exact absurd rfl h
  | cons s l ih =>
    intro a _
    cases l with
    | nil => exact ⟨a, s.length, rfl, rfl, by simp⟩
    | cons t l =>
      obtain ⟨o, c, h1, h2, h3⟩ := ih (a + s.length) (by simp)
      refine ⟨o, c, ?_, ?_, ?_⟩
      · show ((a : ℤ) :: starts (a + s.length) (t :: l)).getLast? = _
        rw [← h1]
        rfl
      · rw [← h2]
        rfl
      · rw [flatten_cons_length, h3]
        omega

theorem lastOf_eq {a : List ℤ} {x : ℤ} (h : a.getLast? = some x) : lastOf a = ok x := by
  unfold lastOf
  rw [h]

theorem ofFn_ne_nil (hn : 0 < n) (f : Fin n → β) : List.ofFn f ≠ [] := by
  intro h
  have := congrArg List.length h
  rw [List.length_ofFn] at this
  simp at this
  omega

/-- What a rank does after the sizes were exchanged: `b s r` is what rank `s` sends to rank `r`. -/
theorem easy_after (junk : α) (hn : 0 < n) (b : Fin n → Fin n → List α) (hi : ∀ s, (List.ofFn (b s)).flatten.length < 2 ^ 31)
    (ho : ∀ r, (List.ofFn (fun s => b s r)).flatten.length < 2 ^ 31) :
    ∃ k : Fin n → Ans α → Prog α (List α × List ℤ),
      (∀ r, all2allvEasy junk n (List.ofFn (b r)).flatten (lens (List.ofFn (b r))) = .call (.alltoallInt 1 (lens (List.ofFn (b r)))) (k r)) ∧
      ∀ r, k r (.ints (lens (List.ofFn (fun s => b s r)))) =
        if (List.ofFn (b r)).flatten = [] ∧ (List.ofFn (fun s => b s r)).flatten = []
        then .done (throw "input and output buffers must not be identical")
        else .call (.alltoallv (List.ofFn (b r)).flatten (lens (List.ofFn (b r))) (starts 0 (List.ofFn (b r)))
            (List.replicate (List.ofFn (fun s => b s r)).flatten.length junk) (lens (List.ofFn (fun s => b s r)))
            (starts 0 (List.ofFn (fun s => b s r)))) (fun
          | .data res => .done (ok (res, lens (List.ofFn (fun s => b s r))))
          | _ => .done (ub "answer")) := by
  have hcall : ∀ r, ∃ k, all2allvEasy junk n (List.ofFn (b r)).flatten (lens (List.ofFn (b r))) =
        .call (.alltoallInt 1 (lens (List.ofFn (b r)))) k ∧
      k (.ints (lens (List.ofFn (fun s => b s r)))) =
        if (List.ofFn (b r)).flatten = [] ∧ (List.ofFn (fun s => b s r)).flatten = []
        then .done (throw "input and output buffers must not be identical")
        else .call (.alltoallv (List.ofFn (b r)).flatten (lens (List.ofFn (b r))) (starts 0 (List.ofFn (b r)))
            (List.replicate (List.ofFn (fun s => b s r)).flatten.length junk) (lens (List.ofFn (fun s => b s r)))
            (starts 0 (List.ofFn (fun s => b s r)))) (fun
          | .data res => .done (ok (res, lens (List.ofFn (fun s => b s r))))
          | _ => .done (ub "answer")) := by
    intro r
    have hlen : (lens (List.ofFn (b r))).length = n := by simp [lens]
    have hne : lens (List.ofFn (b r)) ≠ [] := by
      intro h
      rw [h] at hlen
      simp at hlen
      omega
    have hi' := hi r
    have ho' := ho r
    unfold all2allvEasy easyPrep all2allInt
    rw [if_neg (by simp [hlen]), unequal_ok (Or.inl hne), hlen]
    simp only [lift, Nat.mod_self, ne_eq, not_true_eq_false, if_false, Nat.div_self hn]
    refine ⟨_, rfl, ?_⟩
    generalize hI : List.ofFn (b r) = I at *
    generalize hO : List.ofFn (fun s => b s r) = O at *
    obtain ⟨o1, c1, i1, i2, i3⟩ := starts_last I 0 (by rw [← hI]; exact ofFn_ne_nil hn _)
    obtain ⟨o2, c2, j1, j2, j3⟩ := starts_last O 0 (by rw [← hO]; exact ofFn_ne_nil hn _)
    have e1 : prefixes 0 (lens I) = ok (starts 0 I) := prefixes_eq _ 0 (by omega)
    have e2 : prefixes 0 (lens O) = ok (starts 0 O) := prefixes_eq _ 0 (by omega)
    rw [zero_add] at i3 j3
    have a1 : addInt o1 c1 = ok (I.flatten.length : ℤ) := by rw [addInt_eq (i3 ▸ hi'), i3]
    have a2 : addInt o2 c2 = ok (O.flatten.length : ℤ) := by rw [addInt_eq (j3 ▸ ho'), j3]
    dsimp only
    rw [e1, ok_bind, e2, ok_bind, lastOf_eq i1, ok_bind, lastOf_eq i2, ok_bind, a1, ok_bind, if_pos rfl]
    dsimp only
    rw [lastOf_eq j1, ok_bind, lastOf_eq j2, ok_bind, a2, ok_bind, allocInt_eq, ok_bind]
    by_cases he : I.flatten = [] ∧ O.flatten = []
    · rw [if_pos he]
      rw [he.1, he.2]
      rfl
    · rw [if_neg he, unequal_ok, ok_bind]
      · rfl
      · by_contra hc
        push Not at hc
        apply he
        refine ⟨hc.1, List.length_eq_zero_iff.mp ?_⟩
        have := congrArg List.length hc.2
        simpa using this
  choose k h1 h2 using hcall
  exact ⟨k, h1, h2⟩

theorem lens_column (b : Fin n → Fin n → List α) (r : Fin n) :
    (List.ofFn (fun s => ((lens (List.ofFn (b s))).drop (r.val * 1)).take 1)).flatten = lens (List.ofFn (fun s => b s r)) := by
  have h : ∀ s, ((lens (List.ofFn (b s))).drop (r.val * 1)).take 1 = [((b s r).length : ℤ)] := by
    intro s
    rw [mul_one, lens_ofFn]
    have hr : r.val < (List.ofFn (fun r => ((b s r).length : ℤ))).length := by simp
    rw [List.drop_eq_getElem_cons hr]
    simp
  simp only [h]
  rw [lens_ofFn]
  have : ∀ (m : ℕ) (f : Fin m → ℤ), (List.ofFn (fun s => [f s])).flatten = List.ofFn f := by
    intro m
    induction m with
    | zero => intro f; simp
    | succ m ih => intro f; rw [List.ofFn_succ, List.ofFn_succ, List.flatten_cons, ih]; rfl
  exact this n (fun s => ((b s r).length : ℤ))

/-- **C68** (`all2allv_easy`): rank `s` passes the concatenation of the blocks `b s 0, b s 1, …` and their sizes (below `2^31` in total,
as what any rank receives).  If every rank sends or receives something, all return, and rank `r` has the blocks `b 0 r, b 1 r, …`
and their sizes. -/
theorem C68_all2allv_easy_partial (junk : α) (hn : 0 < n) (b : Fin n → Fin n → List α)
    (hi : ∀ s, (List.ofFn (b s)).flatten.length < 2 ^ 31) (ho : ∀ r, (List.ofFn (fun s => b s r)).flatten.length < 2 ^ 31)
    (hne : ∀ r, (List.ofFn (b r)).flatten ≠ [] ∨ (List.ofFn (fun s => b s r)).flatten ≠ []) :
    Runs (fun r => all2allvEasy junk n (List.ofFn (b r)).flatten (lens (List.ofFn (b r))))
      (fun r => ok ((List.ofFn (fun s => b s r)).flatten, lens (List.ofFn (fun s => b s r)))) := by
  obtain ⟨k, hk, hk2⟩ := easy_after junk hn b hi ho
  refine Runs.step' hk (.alltoallInt 1 _ (fun r => by simp [lens])) ?_
  refine Runs.step'
    (q := fun r => .alltoallv (List.ofFn (b r)).flatten (lens (List.ofFn (b r))) (starts 0 (List.ofFn (b r)))
            (List.replicate (List.ofFn (fun s => b s r)).flatten.length junk) (lens (List.ofFn (fun s => b s r)))
            (starts 0 (List.ofFn (fun s => b s r))))
    (k := fun r => fun
          | .data res => .done (ok (res, lens (List.ofFn (fun s => b s r))))
          | _ => .done (ub "answer"))
    (a := fun r => .data (List.ofFn (fun s => b s r)).flatten)
    (fun r => ?_) (.alltoallv _ _ _ _ _ _ _ b (fun s r => ?_) (fun s r => ?_) (fun r => ?_) (fun r => ?_)) (Runs.fin' (fun r => rfl))
  · rw [lens_column, hk2 r, if_neg]
    rintro ⟨h1, h2⟩
    rcases hne r with h | h
    · exact h h1
    · exact h h2
  · obtain ⟨o, h1, h2⟩ := slice_eq (List.ofFn (b s)) [] r.val (b s r) (by simp)
    exact ⟨o, ((b s r).length : ℤ), h1, by rw [lens_ofFn]; simp, h2⟩
  · rw [lens_ofFn]
    simp
  · rw [starts_length, List.length_ofFn]
  · exact place_eq (List.ofFn (fun s => b s r)) [] _ (by simp)

/-- **C68** (`all2allv_easy`, an idle rank): a rank that neither sends nor receives anything throws while the others wait for it: the
call never returns on all ranks. -/
theorem C68_all2allv_easy_idle_never_returns (junk : α) (hn : 0 < n) (b : Fin n → Fin n → List α)
    (hi : ∀ s, (List.ofFn (b s)).flatten.length < 2 ^ 31) (ho : ∀ r, (List.ofFn (fun s => b s r)).flatten.length < 2 ^ 31)
    (r : Fin n) (h1 : (List.ofFn (b r)).flatten = []) (h2 : (List.ofFn (fun s => b s r)).flatten = [])
    (t : Fin n) (h3 : (List.ofFn (b t)).flatten ≠ []) (x : Fin n → Res (List α × List ℤ)) :
    ¬Runs (fun r => all2allvEasy junk n (List.ofFn (b r)).flatten (lens (List.ofFn (b r)))) x := by
  intro h
  obtain ⟨k, hk, hk2⟩ := easy_after junk hn b hi ho
  rcases h.inv with h | ⟨q, k', a, g1, g2, g3⟩
  · have := h ⟨0, hn⟩
    rw [hk] at this
    cases this
  · have hq : ∀ r, q r = .alltoallInt 1 (lens (List.ofFn (b r))) := fun r => (Prog.call.inj ((g1 r).symm.trans (hk r))).1
    have hkk : ∀ r, k' r = k r := fun r => (Prog.call.inj ((g1 r).symm.trans (hk r))).2
    obtain rfl := g2.alltoallInt_inv hn 1 _ hq
    rcases g3.inv with g4 | ⟨q2, k2, a2, g4, -, -⟩
    · have := g4 t
      dsimp only at this
      rw [lens_column, hkk, hk2, if_neg (fun hc => h3 hc.1)] at this
      cases this
    · have := g4 r
      dsimp only at this
      rw [lens_column, hkk, hk2, if_pos ⟨h1, h2⟩] at this
      cases this

/-- **C68** (`all2allv_easy`): sizes that do not add up to the size of the array are noticed (after the sizes were exchanged: here
the continuation for every answer with sizes whose sum is representable). -/
theorem C68_all2allv_easy_sizes (junk : α) (hn : 0 < n) (inp : List α) (l m : List (List α)) (hl : l.length = n)
    (hs : l.flatten.length < 2 ^ 31) (hs2 : m.flatten.length < 2 ^ 31) (hbad : inp.length ≠ l.flatten.length) :
    ∃ k, all2allvEasy junk n inp (lens l) = .call (.alltoallInt 1 (lens l)) k ∧
      k (.ints (lens m)) = .done (throw "incorrect array size") := by
  have hlen : (lens l).length = n := by simp [lens, hl]
  have hne : lens l ≠ [] := by
    intro h
    rw [h] at hlen
    simp at hlen
    omega
  unfold all2allvEasy easyPrep all2allInt
  rw [if_neg (by simp [hlen]), unequal_ok (Or.inl hne), hlen]
  simp only [lift, Nat.mod_self, ne_eq, not_true_eq_false, if_false, Nat.div_self hn]
  refine ⟨_, rfl, ?_⟩
  obtain ⟨o1, c1, i1, i2, i3⟩ := starts_last l 0 (by rintro rfl; simp at hl; omega)
  have e1 : prefixes 0 (lens l) = ok (starts 0 l) := prefixes_eq _ 0 (by omega)
  have e2 : prefixes 0 (lens m) = ok (starts 0 m) := prefixes_eq _ 0 (by omega)
  have hne2 : ¬((inp.length : ℤ) = (l.flatten.length : ℕ)) := by exact_mod_cast hbad
  rw [zero_add] at i3
  have a1 : addInt o1 c1 = ok (l.flatten.length : ℤ) := by rw [addInt_eq (i3 ▸ hs), i3]
  dsimp only
  rw [e1, ok_bind, e2, ok_bind, lastOf_eq i1, ok_bind, lastOf_eq i2, ok_bind, a1, ok_bind, if_neg hne2]

/-! ## sendrecv -/

/-- **C68** (`sendrecv`): nothing is communicated unless a rank sends to itself: the call returns at once and the receive buffer is
unchanged. -/
theorem C68_sendrecv_noop (rank dest src : ℕ) (inp out : List α) (h : rank ≠ src ∨ rank ≠ dest) :
    sendrecv rank dest src inp out = .done (ok out) := by
  unfold sendrecv
  rw [if_pos h]

/-- **C68** (`sendrecv_replace`): never communicates. -/
theorem C68_sendrecv_replace_noop (rank dest src : ℕ) (data : List α) : sendrecvReplace rank dest src data = .done (ok data) := by
  unfold sendrecvReplace
  by_cases h : dest = src
  · rw [if_pos h]
  · rw [if_neg h, if_pos]
    by_contra hc
    push Not at hc
    exact h (hc.2.symm.trans hc.1)

/-- What `sendrecv` is for: every rank receives what its source sends. -/
def SendrecvWorks : Prop :=
  ∀ (n : ℕ) (dest src : Fin n → Fin n) (xs out : Fin n → List ℕ), (∀ r, dest (src r) = r) → (∀ r, xs r ≠ []) →
    (∀ r, (xs (src r)).length = (out r).length) →
    Runs (fun r => sendrecv r.val (dest r).val (src r).val (xs r) (out r)) (fun r => ok (xs (src r)))

/-- What `gatherv` is for. -/
def GathervWorks : Prop :=
  ∀ (n : ℕ) (ins out0 : Fin n → List ℕ), 0 < n → (List.ofFn ins).flatten.length < 2 ^ 31 →
    Runs (fun r : Fin n => gatherv 0 r.val (ins r) (out0 r)) (fun r => ok (if r.val = 0 then (List.ofFn ins).flatten else out0 r))

/-- The full claim: the helpers do what they are for. -/
def C68_Full : Prop := SendrecvWorks ∧ GathervWorks

/-- **C68** in full is false, for both: exchanging one number between two ranks leaves the numbers where they are, and gathering from a
rank without data does not return. -/
theorem C68_full_refuted : ¬SendrecvWorks ∧ ¬GathervWorks := by
  constructor
  · intro h
    have h1 := h 2 Fin.rev Fin.rev (fun r => [r.val]) (fun _ => [7]) (fun r => by simp) (fun r => by simp) (fun r => rfl)
    rcases h1.inv with h2 | ⟨q, k, a, h2, -, -⟩
    · have := h2 0
      simp [sendrecv] at this
    · have := h2 0
      simp [sendrecv] at this
  · intro h
    refine C68_gatherv_empty_never_returns (n := 2) 0 (by norm_num) (fun r => if r.val = 0 then [5] else []) (fun _ => []) ?_ 1 (by simp) ?_ ?_ _
      (h 2 (fun r => if r.val = 0 then [5] else []) (fun _ => []) (by norm_num) ?_)
    · simp
    · simp
    · simp
    · simp

/-! ## concrete cases -/

/-- Three ranks, one element, three, two. -/
example : Runs (fun r : Fin 3 => gatherv 0 r.val (![[1], [2, 3, 4], [5, 6]] r) [9])
    (fun r => ok (if r.val = 0 then [1, 2, 3, 4, 5, 6] else [9])) :=
  C68_gatherv_partial (n := 3) 0 ![[1], [2, 3, 4], [5, 6]] (fun _ => [9]) (by simp)
    (fun r _ => by fin_cases r <;> simp) (by simp)

/-- Two ranks; the second sends nothing to itself. -/
example : Runs (fun r : Fin 2 => all2allvEasy 0 2 (![[1, 2, 3], [4]] r) (![[1, 2], [1, 0]] r))
    (fun r => ok (![([1, 4], [1, 1]), ([2, 3], [2, 0])] r)) := by
  have h := C68_all2allv_easy_partial (n := 2) 0 (by norm_num) (fun s r => (![![[1], [2, 3]], ![[4], []]] s r : List ℕ))
    (fun s => by fin_cases s <;> simp) (fun r => by fin_cases r <;> simp) (fun r => by fin_cases r <;> simp)
  convert h using 2 with r r <;> fin_cases r <;> simp [lens]

end Verif.Mgr
