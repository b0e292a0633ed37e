import Verif.Tod.Float

/-!
# Distribution of the latitude rings over ranks (C09), data-cube exchange (C10), sample window (C11)
-/

namespace Verif.Tod
open Verif Res Spmd

/-- Number of rings owned by rank `j`. -/
def ringsOf (owner : List Int) (j : Int) : Nat := owner.count j

/-- Invariant for the balance of the assignment; `f` is the integer part of rings per rank. -/
structure BInv (cores : Nat) (f : Int) (s : Assign) (rest : Nat) : Prop where
  left : s.nleft = rest
  nass : 0 ≤ s.nassigned
  core : 0 ≤ s.core ∧ s.core ≤ cores
  done : ∀ j, 0 ≤ j → j < s.core → f ≤ ringsOf s.owner j ∧ (ringsOf s.owner j : Int) ≤ f + 1
  cur : s.core < cores → (ringsOf s.owner s.core : Int) = s.nassigned
  later : ∀ j, s.core < j → ringsOf s.owner j = 0
  last : s.core = cores → s.nleft = 0 ∧ ringsOf s.owner s.core = 0
  plan : s.core < cores → f * (cores - s.core) ≤ s.nleft + s.nassigned ∧
    s.nleft + s.nassigned ≤ (f + 1) * (cores - s.core) ∧
    ((s.nassigned < s.ncore ∧ s.nleft + s.nassigned ≤ s.ncore * (cores - s.core) ∧
      s.ncore * (cores - s.core) < s.nleft + s.nassigned + (cores - s.core)) ∨
     (s.nleft = 0 ∧ s.nassigned = 0))

theorem ringsOf_append (owner : List Int) (o j : Int) :
    ringsOf (owner ++ [o]) j = ringsOf owner j + if o = j then 1 else 0 := by
  unfold ringsOf
  rw [List.count_append, List.count_singleton]
  by_cases h : o = j
  · subst h; simp
  · simp [h]

theorem ceilQ_inv {nan : Res Int} {a b q : Int} (hb : 0 < b) (h : ceilQ nan a b = ok q) :
    a ≤ q * b ∧ q * b < a + b := by
  unfold ceilQ at h
  rw [if_neg (by omega)] at h
  injection h with h
  subst h
  have h1 := Int.emod_add_mul_ediv (-a) b
  have h2 := Int.emod_nonneg (-a) (show b ≠ 0 by omega)
  have h4 := Int.emod_lt_of_pos (-a) hb
  have h3 : -(-a / b) * b = -(b * (-a / b)) := by ring
  rw [h3]; omega

theorem quota {f L b q : Int} (hb : 0 < b) (h1 : f * b ≤ L) (h2 : L ≤ (f + 1) * b) (h3 : L ≤ q * b) (h4 : q * b < L + b) :
    f ≤ q ∧ q ≤ f + 1 ∧ f * (b - 1) ≤ L - q ∧ L - q ≤ (f + 1) * (b - 1) := by
  have a1 : f ≤ q := by
    by_contra hc
    have : q + 1 ≤ f := by omega
    nlinarith
  have a2 : q ≤ f + 1 := by
    by_contra hc
    have : f + 2 ≤ q := by omega
    nlinarith
  refine ⟨a1, a2, ?_, ?_⟩
  · rcases (by omega : q = f ∨ q = f + 1) with rfl | rfl
    · nlinarith
    · nlinarith
  · rcases (by omega : q = f ∨ q = f + 1) with rfl | rfl
    · nlinarith
    · nlinarith

theorem BInv.step {nan : Res Int} {cores me : Nat} {f : Int} {s t : Assign} {b : Bool} {k rest : Nat}
    (h : BInv cores f s (rest + if b then 1 else 0)) (hf : 0 ≤ f) (hs : assignStep nan cores me s (b, k) = ok t) :
    BInv cores f t rest := by
  obtain ⟨hl, hn, hc, hd, hcu, hla, hlast, hp⟩ := h
  unfold assignStep at hs
  cases b with
  | false =>
    simp only [Bool.false_eq_true, if_false] at hs hl
    injection hs with hs
    subst hs
    have e : ∀ j, 0 ≤ j → ringsOf (s.owner ++ [-1]) j = ringsOf s.owner j := by
      intro j hj; rw [ringsOf_append, if_neg (by omega), Nat.add_zero]
    exact ⟨by simpa using hl, hn, hc, fun j h0 h1 => by simp only; rw [e j h0]; exact hd j h0 h1,
      fun h => by simp only; rw [e _ hc.1]; exact hcu h,
      fun j hj => by simp only at hj ⊢; rw [e j (by omega)]; exact hla j hj,
      fun h => by simp only; rw [e _ hc.1]; exact hlast h, hp⟩
  | true =>
    simp only [if_true] at hs hl
    have hclt : s.core < cores := by
      rcases lt_or_eq_of_le hc.2 with h | h
      · exact h
      · have := (hlast h).1; push_cast at hl; omega
    obtain ⟨p1, p2, p3⟩ := hp hclt
    rcases p3 with ⟨p3, p4, p5⟩ | ⟨p3, _⟩
    swap
    · push_cast at hl; omega
    have hcu' := hcu hclt
    by_cases hfull : s.nassigned + 1 = s.ncore
    · rw [if_pos hfull, bind_eq_ok] at hs
      obtain ⟨q, hq, hs⟩ := hs
      injection hs with hs
      subst hs
      obtain ⟨g1, g2, g3, g4⟩ := quota (by omega) p1 p2 p4 p5
      refine ⟨by simp only; push_cast at hl; omega, by simp, by simp only; omega, ?_, ?_, ?_, ?_, ?_⟩
      · intro j h0 h1
        simp only at h1 ⊢
        rw [ringsOf_append]
        by_cases hj : s.core = j
        · subst hj; rw [if_pos rfl]; push_cast; omega
        · rw [if_neg hj]; have := hd j h0 (by omega); simpa using this
      · intro h
        simp only at h ⊢
        rw [ringsOf_append, if_neg (by omega)]
        have := hla (s.core + 1) (by omega); push_cast; omega
      · intro j hj
        simp only at hj ⊢
        rw [ringsOf_append, if_neg (by omega), hla j (by omega)]
      · intro h
        simp only at h ⊢
        rw [ringsOf_append, if_neg (by omega), hla _ (by omega)]
        have : (cores : Int) - s.core = 1 := by omega
        rw [this] at p4 p5
        omega
      · intro h
        simp only at h ⊢
        have e1 : (cores : Int) - (s.core + 1) = (cores - s.core) - 1 := by ring
        rw [e1] at hq ⊢
        obtain ⟨c1, c2⟩ := ceilQ_inv (by omega) hq
        refine ⟨by omega, by omega, ?_⟩
        by_cases h0 : s.nleft - 1 = 0
        · right; exact ⟨h0, trivial⟩
        · left
          refine ⟨?_, by omega, by omega⟩
          by_contra hc0
          have : q * ((cores : Int) - s.core - 1) ≤ 0 := Int.mul_nonpos_of_nonpos_of_nonneg (by omega) (by omega)
          push_cast at hl; omega
    · rw [if_neg hfull] at hs
      injection hs with hs
      subst hs
      refine ⟨by simp only; push_cast at hl; omega, by simp only; omega, hc, ?_, ?_, ?_, ?_, ?_⟩
      · intro j h0 h1
        simp only at h1 ⊢
        rw [ringsOf_append, if_neg (by omega)]; have := hd j h0 (by omega); simpa using this
      · intro h
        simp only at h ⊢
        rw [ringsOf_append, if_pos rfl]; push_cast; omega
      · intro j hj
        simp only at hj ⊢
        rw [ringsOf_append, if_neg (by omega), hla j (by omega)]
      · intro h; simp only at h; omega
      · intro h
        simp only at h ⊢
        exact ⟨by omega, by omega, Or.inl ⟨by omega, by omega, by omega⟩⟩

theorem trues_cons (b : Bool) (l : List Bool) : trues (b :: l) = trues l + if b then 1 else 0 := by
  cases b <;> rfl

theorem BInv.fold {nan : Res Int} {cores me : Nat} {f : Int} (hf : 0 ≤ f) : ∀ (rest : List Bool) (k : Nat) (s t : Assign),
    BInv cores f s (trues rest) → foldRes (assignStep nan cores me) s (rest.zipIdx k) = ok t → BInv cores f t 0 := by
  intro rest
  induction rest with
  | nil => intro k s t h ht; injection ht with ht; subst ht; exact h
  | cons b rest ih =>
    intro k s t h ht
    rw [List.zipIdx_cons, foldRes_cons] at ht
    rw [trues_cons] at h
    cases hs : assignStep nan cores me s (b, k) with
    | ok u => rw [hs] at ht; exact ih (k + 1) u t (h.step hf hs) ht
    | throw m => rw [hs] at ht; cases ht
    | ub w => rw [hs] at ht; cases ht

/-- Every rank gets the integer part of rings per rank, or one more. -/
theorem assign_even {nan : Res Int} {cores me : Nat} (hc : 0 < cores) {need : List Bool} {t : Assign}
    (h : assign nan cores me need = ok t) :
    ∀ j : Int, 0 ≤ j → j < cores → trues need / cores ≤ ringsOf t.owner j ∧ ringsOf t.owner j ≤ trues need / cores + 1 := by
  unfold assign at h
  rw [bind_eq_ok] at h
  obtain ⟨q, hq, h⟩ := h
  obtain ⟨c1, c2⟩ := ceilQ_inv (by omega) hq
  set T := (need.filter id).length with hT
  have hT' : trues need = T := rfl
  have hf1 : ((T / cores : Nat) : Int) * cores ≤ T := by exact_mod_cast Nat.div_mul_le_self T cores
  have hf2 : (T : Int) ≤ (((T / cores : Nat) : Int) + 1) * cores := by
    have := Nat.lt_div_mul_add (a := T) hc
    have : T ≤ (T / cores + 1) * cores := by rw [Nat.add_mul]; omega
    exact_mod_cast this
  have hinv : BInv cores ((T / cores : Nat) : Int) ⟨0, 0, q, T, [], []⟩ (trues need) := by
    refine ⟨by simp [hT'], by simp, by simp, fun j h0 h1 => by simp at h1; omega, fun _ => by simp [ringsOf],
      fun j _ => by simp [ringsOf], fun h => by simp at h; omega, fun _ => ?_⟩
    simp only [Int.sub_zero, Int.add_zero]
    refine ⟨hf1, hf2, ?_⟩
    by_cases h0 : (T : Int) = 0
    · right; exact ⟨h0, trivial⟩
    · left
      refine ⟨?_, c1, c2⟩
      by_contra hc0
      have : q * (cores : Int) ≤ 0 := Int.mul_nonpos_of_nonpos_of_nonneg (by omega) (by omega)
      omega
  have hfin := BInv.fold (Int.natCast_nonneg _) need 0 _ t hinv h
  obtain ⟨hl, hn, hcc, hd, hcu, hla, hlast, hp⟩ := hfin
  have key : ∀ j, 0 ≤ j → j < (cores : Int) → t.core ≤ j → ringsOf t.owner j = 0 ∧ T / cores = 0 := by
    intro j h0 h1 h2
    have hlt : t.core < cores := by omega
    obtain ⟨p1, p2, p3⟩ := hp hlt
    have hz : t.nassigned = 0 := by
      rcases p3 with ⟨a, b, c⟩ | ⟨_, b⟩
      · exfalso
        rw [hl] at b c
        simp only [Nat.cast_zero, zero_add] at b c
        have hb : (0 : Int) < cores - t.core := by omega
        nlinarith
      · exact b
    rw [hl, hz] at p1
    have hf0 : ((T / cores : Nat) : Int) = 0 := by
      have hb : (0 : Int) < cores - t.core := by omega
      have hpos : (0 : Int) ≤ ((T / cores : Nat) : Int) := Int.natCast_nonneg _
      simp only [Nat.cast_zero, add_zero] at p1
      by_contra hne
      have : (1 : Int) ≤ ((T / cores : Nat) : Int) := by omega
      nlinarith
    refine ⟨?_, by exact_mod_cast hf0⟩
    rcases lt_or_eq_of_le h2 with h | h
    · exact hla j h
    · subst h; have := hcu hlt; omega
  intro j h0 h1
  rw [hT']
  by_cases hj : j < t.core
  · have := hd j h0 hj; omega
  · obtain ⟨a, b⟩ := key j h0 h1 (by omega)
    omega

theorem filter_range_count (owner : List Int) (j : Int) :
    ((List.range owner.length).filter (fun i => owner.getD i (-1) == j)).length = ringsOf owner j := by
  induction owner using List.reverseRecOn with
  | nil => rfl
  | append_singleton l o ih =>
    rw [ringsOf_append, ← ih, List.length_append, List.length_singleton, List.range_succ, List.filter_append,
      List.length_append]
    congr 1
    · congr 1
      apply List.filter_congr
      intro i hi
      rw [List.mem_range] at hi
      rw [List.getD_eq_getElem?_getD, List.getElem?_append_left hi, ← List.getD_eq_getElem?_getD]
    · rw [List.filter_singleton]
      have e2 : (l ++ [o]).getD l.length (-1) = o := by simp [List.getD_eq_getElem?_getD]
      rw [e2]
      by_cases h : o = j
      · subst h; simp
      · have : (o == j) = false := by simpa using h
        simp [this, h]

/-- C09.  `owner` is the table all ranks compute: every needed latitude has exactly one owner in range,
unneeded latitudes have none, the list of a rank holds exactly its latitudes in ascending order, and the
numbers of latitudes of two ranks differ by at most one. -/
theorem C09_assignment {nan : Res Int} (hnan : ∃ v, nan = ok v) {cores : Nat} (hc : 1 ≤ cores) (need : List Bool) :
    ∃ owner : List Int, owner.length = need.length ∧
      (∀ i : Nat, need[i]? = some true → ∃ o, owner[i]? = some o ∧ 0 ≤ o ∧ o < cores) ∧
      (∀ i : Nat, need[i]? = some false → owner[i]? = some (-1)) ∧
      ∀ me, ∃ t, assign nan cores me need = ok t ∧ t.owner = owner ∧
        t.mine.Pairwise (· < ·) ∧ (∀ i, i ∈ t.mine ↔ owner[i]? = some (me : Int)) ∧
        (me < cores → ∀ you < cores, ∀ t', assign nan cores you need = ok t' → t.mine.length ≤ t'.mine.length + 1) := by
  obtain ⟨t0, h0, hl, ho, _⟩ := assign_spec hnan (cores := cores) (by omega) 0 need
  have hmine : ∀ me t, assign nan cores me need = ok t →
      t.mine = (List.range t0.owner.length).filter (fun i => t0.owner.getD i (-1) == (me : Int)) := by
    intro me t ht
    obtain ⟨t', h', _, _, hm⟩ := assign_spec hnan (cores := cores) (by omega) me need
    rw [ht] at h'; injection h' with h'; subst h'
    rw [hm, assign_owner ht h0, hl]
  have heven : ∀ me t, me < cores → assign nan cores me need = ok t →
      trues need / cores ≤ t.mine.length ∧ t.mine.length ≤ trues need / cores + 1 := by
    intro me t hme ht
    have := assign_even (by omega) ht (me : Int) (by omega) (by omega)
    rw [hmine me t ht, filter_range_count]
    rw [assign_owner ht h0] at this
    exact this
  refine ⟨t0.owner, hl, ?_, ?_, ?_⟩
  · intro i hi
    have hlt : i < t0.owner.length := by rw [hl]; exact (List.getElem?_eq_some_iff.mp hi).1
    exact ⟨_, List.getElem?_eq_getElem hlt, (ho i hlt).1 hi⟩
  · intro i hi
    have hlt : i < t0.owner.length := by rw [hl]; exact (List.getElem?_eq_some_iff.mp hi).1
    rw [List.getElem?_eq_getElem hlt, (ho i hlt).2 hi]
  · intro me
    obtain ⟨t, ht, _⟩ := assign_spec hnan (cores := cores) (by omega) me need
    refine ⟨t, ht, assign_owner ht h0, ?_, ?_, ?_⟩
    · rw [hmine me t ht]; exact List.Pairwise.filter _ List.pairwise_lt_range
    · intro i
      rw [hmine me t ht, List.mem_filter, List.mem_range, beq_iff_eq, List.getD_eq_getElem?_getD]
      constructor
      · rintro ⟨h1, h2⟩
        rw [List.getElem?_eq_getElem h1] at h2 ⊢
        exact congrArg some h2
      · intro h
        have := (List.getElem?_eq_some_iff.mp h).1
        exact ⟨this, by rw [h]; rfl⟩
    · intro hme you hyou t' ht'
      have a := heven me t hme ht
      have b := heven you t' hyou ht'
      omega

/-- Non-vacuity: five needed latitudes out of seven on two ranks: three and two. -/
example : (assign (ok 0) 2 0 [true, false, true, true, true, false, true]).bind (fun t => ok (t.owner, t.mine)) =
    ok ([0, -1, 0, 0, 1, -1, 1], [0, 2, 3]) := by decide

/-- C60 (finding): as soon as there are at least as many needed latitudes as ranks, the assignment converts
the NaN `0/0.` to `long` – undefined behaviour in C++. -/
theorem C60_nan_undefined {w : String} {cores : Nat} (hc : 1 ≤ cores) (me : Nat) (need : List Bool)
    (hmany : cores ≤ trues need) : assign (ub w) cores me need = ub w := by
  -- with any defined conversion the loop ends with `core = cores`
  have key : ∀ (rest : List Bool) (k : Nat) (s t : Assign) (v : Int), s.core < cores →
      foldRes (assignStep (ok v) cores me) s (rest.zipIdx k) = ok t → t.core = cores →
      foldRes (assignStep (ub w) cores me) s (rest.zipIdx k) = ub w := by
    intro rest
    induction rest with
    | nil =>
      intro k s t v h1 h2 h3
      injection h2 with h2
      subst h2; omega
    | cons b rest ih =>
      intro k s t v h1 h2 h3
      rw [List.zipIdx_cons, foldRes_cons] at h2 ⊢
      cases b with
      | false =>
        have e1 : assignStep (ok v) cores me s (false, k) = ok { s with owner := s.owner ++ [-1] } := rfl
        have e2 : assignStep (ub w) cores me s (false, k) = ok { s with owner := s.owner ++ [-1] } := rfl
        rw [e1] at h2
        rw [e2]
        exact ih (k + 1) _ t v h1 h2 h3
      | true =>
        unfold assignStep at h2 ⊢
        simp only [if_true] at h2 ⊢
        by_cases hfull : s.nassigned + 1 = s.ncore
        · rw [if_pos hfull] at h2 ⊢
          by_cases hlast : (cores : Int) - (s.core + 1) = 0
          · unfold ceilQ
            rw [if_pos hlast]; rfl
          · unfold ceilQ at h2 ⊢
            rw [if_neg hlast] at h2 ⊢
            simp only [ok_bind, Res.bind] at h2 ⊢
            exact ih (k + 1) _ t v (by simp only; omega) h2 h3
        · rw [if_neg hfull] at h2 ⊢
          simp only [Res.bind] at h2 ⊢
          exact ih (k + 1) _ t v h1 h2 h3
  obtain ⟨t, ht, _⟩ := assign_spec (nan := ok 0) ⟨0, rfl⟩ (cores := cores) (by omega) me need
  have hcore : t.core = cores := by
    have he := assign_even (by omega) ht
    have h2 := ht
    unfold assign at h2
    rw [bind_eq_ok] at h2
    obtain ⟨q, hq, h2⟩ := h2
    obtain ⟨c1, c2⟩ := ceilQ_inv (by omega) hq
    set T := (need.filter id).length with hT
    have hT' : trues need = T := rfl
    have hf1 : ((T / cores : Nat) : Int) * cores ≤ T := by exact_mod_cast Nat.div_mul_le_self T cores
    have hf2 : (T : Int) ≤ (((T / cores : Nat) : Int) + 1) * cores := by
      have := Nat.lt_div_mul_add (a := T) (b := cores) (by omega)
      have : T ≤ (T / cores + 1) * cores := by rw [Nat.add_mul]; omega
      exact_mod_cast this
    have hinv : BInv cores ((T / cores : Nat) : Int) ⟨0, 0, q, T, [], []⟩ (trues need) := by
      refine ⟨by simp [hT'], by simp, by simp, fun j h0 h1 => by simp at h1; omega, fun _ => by simp [ringsOf],
        fun j _ => by simp [ringsOf], fun h => by simp at h; omega, fun _ => ?_⟩
      simp only [Int.sub_zero, Int.add_zero]
      refine ⟨hf1, hf2, ?_⟩
      left
      refine ⟨?_, c1, c2⟩
      by_contra hc0
      have : q * (cores : Int) ≤ 0 := Int.mul_nonpos_of_nonpos_of_nonneg (by omega) (by omega)
      omega
    have hfin := BInv.fold (Int.natCast_nonneg _) need 0 _ t hinv h2
    have hfpos : 1 ≤ T / cores := (Nat.one_le_div_iff (by omega)).mpr (by omega)
    by_contra hne
    have hlt : t.core < cores := by have := hfin.core.2; omega
    obtain ⟨p1, p2, p3⟩ := hfin.plan hlt
    have hl := hfin.left
    have hb : (0 : Int) < cores - t.core := by omega
    have hfi : (1 : Int) ≤ ((T / cores : Nat) : Int) := by exact_mod_cast hfpos
    rcases p3 with ⟨a, b, c⟩ | ⟨_, b⟩
    · rw [hl] at b c
      simp only [Nat.cast_zero, zero_add] at b c
      nlinarith [hfin.nass]
    · rw [hl, b] at p1
      simp only [Nat.cast_zero, add_zero] at p1
      nlinarith
  unfold assign at ht ⊢
  rw [bind_eq_ok] at ht
  obtain ⟨q, hq, ht⟩ := ht
  have hq' : ceilQ (ub w) ((need.filter id).length : Int) cores = ok q := by
    unfold ceilQ at hq ⊢
    rw [if_neg (by omega)] at hq ⊢
    exact hq
  simp only [hq', ok_bind]
  exact key need 0 _ t 0 (by simp only; omega) ht hcore

/-- C10: after the exchange every rank holds, at position `p`, ring `offset + p` as computed by the ring's
owner, for both hemispheres; nothing blocks and nothing is out of bounds. -/
theorem C10_cube_exchange {F : Type} [Arith F] {nan : Res Int} (hnan : ∃ v, nan = ok v) {cores : Nat} (hc : 1 ≤ cores)
    (c : Cfg) {kern : Nat → List Nat → Res (List (List F) × List (List F))} (ring : Bool → Nat → List F)
    (hkern : ∀ r mine, kern r mine = ok (mine.map (ring false), mine.map (ring true))) (hring : ∀ h i, (ring h i).length = c.bufsize)
    (off1 n1 off2 n2 : Nat → Nat)
    (hw1 : ∀ r < cores, off1 r + n1 r ≤ c.ntheta) (hw2 : ∀ r < cores, off2 r + n2 r ≤ c.ntheta) :
    ∃ v, Returns cores (fun r => hemis nan c cores r (kern r) (off1 r) (n1 r) (off2 r) (n2 r)) v ∧
      ∀ r < cores, (v r).1.length = n1 r ∧ (v r).2.length = n2 r ∧
        (∀ p < n1 r, (v r).1[p]? = some (ring false (off1 r + p))) ∧
        (∀ p < n2 r, (v r).2[p]? = some (ring true (off2 r + p))) := by
  refine ⟨_, (hemis_exec hnan hc c ring hkern hring off1 n1 off2 n2 hw1 hw2).finish hc, ?_⟩
  intro r hr
  refine ⟨by simp, by simp, fun p hp => by simp [hp], fun p hp => by simp [hp]⟩


/-- C11: for a list of rows sorted by (folded) colatitude, the rings of the local cube are inside the grid, ring
`jj` is offered exactly once to exactly those samples whose `order + 1` rings include it, and each of the
`order + 1` rings of a sample is in the local cube. -/
theorem C11_window {F : Type} [Arith F] {e : Env F} {Ang : F → Prop} (hL : Laws e Ang) {rows : List (Row F)} (hne : rows ≠ [])
    (hA : ∀ r ∈ rows, Ang r.theta ∧ Arith.lt Arith.halfpi r.theta = false)
    (hs : rows.Pairwise (fun p q => Arith.lt q.theta p.theta = false)) :
    ∃ su, setUp e.cfg rows = ok su ∧ 0 ≤ su.off ∧ su.off + su.n ≤ e.cfg.ntheta ∧
      (∀ jj : Nat, (jj : Int) < su.n → (window e.cfg su jj).Nodup ∧ ∀ ii, ii ∈ window e.cfg su jj ↔
        ∃ (h : ii < rows.length) (i0 : Int), betaToItheta e.cfg rows[ii].theta = ok i0 ∧
          i0 ≤ su.off + jj ∧ su.off + jj ≤ i0 + e.cfg.order) ∧
      (∀ ii (h : ii < rows.length) (i0 : Int), betaToItheta e.cfg rows[ii].theta = ok i0 →
        ∀ k : Nat, k ≤ e.cfg.order → ∃ jj : Nat, (jj : Int) < su.n ∧ su.off + jj = i0 + k) := by
  obtain ⟨su, h1, h2, h3, h4, h5, h6, h7⟩ := setUp_ok hL rows hne hA hs
  refine ⟨su, h1, h5, h7, ?_, ?_⟩
  · intro jj hjj
    refine ⟨window_nodup _ _ _, fun ii => ?_⟩
    rw [mem_window h2 hjj]
    unfold Cfg.npoints
    constructor
    · rintro ⟨a, b, c⟩
      exact ⟨by omega, _, h4 ii (by omega), b, by push_cast at c; omega⟩
    · rintro ⟨a, i0, b, c, d⟩
      rw [h4 ii a] at b
      injection b with b
      subst b
      exact ⟨by omega, c, by push_cast; omega⟩
  · intro ii hi i0 hi0 k hk
    rw [h4 ii hi] at hi0
    injection hi0 with hi0
    subst hi0
    have a := h2.ge (i := ii) (by omega)
    have b := h2.le (i := ii) (by omega)
    unfold Cfg.npoints at b
    push_cast at b
    exact ⟨(su.it.getD ii 0 + k - su.off).toNat, by omega, by omega⟩

/-- C11: the interpolated value of a sample is the accumulation, in ascending ring order, of the
contributions of exactly its `order + 1` rings; the schedule plays no role. -/
theorem C11_interpolate {F : Type} [Arith F] {e : Env F} {Ang : F → Prop} (hL : Laws e Ang) {rows : List (Row F)} (hne : rows ≠ [])
    (hA : ∀ r ∈ rows, Ang r.theta ∧ Arith.lt Arith.halfpi r.theta = false)
    (hs : rows.Pairwise (fun p q => Arith.lt q.theta p.theta = false)) (ring : Int → List F) {v : Nat → F}
    (hv : ∀ ii (hi : ii < rows.length), ∃ i0, betaToItheta e.cfg rows[ii].theta = ok i0 ∧
      forN (e.cfg.order + 1) (fun k acc => accum e.cfg rows[ii] i0 (i0 + k) (ring (i0 + k)) acc) (Arith.ofInt 0) = ok (v ii)) :
    ∃ su, setUp e.cfg rows = ok su ∧
      interpolate e.cfg e.sched rows su ((List.range su.n.toNat).map (fun jj : Nat => ring (su.off + jj))) =
        ok ((List.range rows.length).map v) := by
  obtain ⟨su, h1, h2, h3, h4, h5, h6, h7⟩ := setUp_ok hL rows hne hA hs
  refine ⟨su, h1, interpolate_spec hL.sched h2 h3 (ring := ring) (by simp; omega) ?_ ?_⟩
  · intro jj hjj
    simp at hjj
    simp [hjj]
  · intro ii hi
    obtain ⟨i0, a, b⟩ := hv ii hi
    rw [h4 ii hi] at a
    injection a with a
    rw [← a] at b
    exact b

end Verif.Tod
