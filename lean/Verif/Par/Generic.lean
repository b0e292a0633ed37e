import Verif.Par.Model

/-!
# Generic facts about the threads of a parallel region
-/

namespace Verif.Par
open Verif Res

variable {L V α β S : Type}

open Classical in
/-- The effect of a program that runs alone. -/
noncomputable def run : Prog L V α → (L → V) → Res α × (L → V)
  | .ret r, m => (r, m)
  | .load l k, m => run (k (m l)) m
  | .store l v k, m => run k (Function.update m l v)

/-- All loads of the program are from `W ∪ R`, all stores to `W`. -/
def Stays (W R : Set L) : Prog L V α → Prop
  | .ret _ => True
  | .load l k => (l ∈ W ∨ l ∈ R) ∧ ∀ v, Stays W R (k v)
  | .store l _ k => l ∈ W ∧ Stays W R k

open Classical in
/-- number of actions of a program that runs alone -/
noncomputable def cost : Prog L V α → (L → V) → ℕ
  | .ret _, _ => 0
  | .load l k, m => cost (k (m l)) m + 1
  | .store l v k, m => cost k (Function.update m l v) + 1

theorem Stays.mono {W W' R : Set L} (h : W ⊆ W') : ∀ {p : Prog L V α}, Stays W R p → Stays W' R p
  | .ret _, _ => trivial
  | .load _ _, hp => ⟨hp.1.imp (@h _) id, fun v => (hp.2 v).mono h⟩
  | .store _ _ _, hp => ⟨h hp.1, Stays.mono h hp.2⟩

theorem Stays.bind {W R : Set L} {f : α → Prog L V β} (hf : ∀ a, Stays W R (f a)) :
    ∀ {p : Prog L V α}, Stays W R p → Stays W R (p.bind f)
  | .ret (.ok a), _ => hf a
  | .ret (.throw _), _ => trivial
  | .ret (.ub _), _ => trivial
  | .load _ _, hp => ⟨hp.1, fun v => (hp.2 v).bind hf⟩
  | .store _ _ _, hp => ⟨hp.1, Stays.bind hf hp.2⟩

theorem Stays.bind' {W R : Set L} {f : α → Prog L V β} (hf : ∀ a, Stays W R (f a)) {p : Prog L V α} (hp : Stays W R p) :
    Stays W R (p >>= f) := hp.bind hf

theorem Stays.forL {W R : Set L} {f : β → S → Prog L V S} : ∀ (xs : List β), (∀ x ∈ xs, ∀ s, Stays W R (f x s)) →
    ∀ s, Stays W R (Prog.forL xs f s)
  | [], _, _ => trivial
  | x :: xs, hf, s => Stays.bind (fun s => Stays.forL xs (fun y hy => hf y (List.mem_cons_of_mem _ hy)) s)
      (hf x List.mem_cons_self s)

theorem Stays.forN {W R : Set L} {f : ℕ → S → Prog L V S} : ∀ (n : ℕ), (∀ i < n, ∀ s, Stays W R (f i s)) →
    ∀ s, Stays W R (Prog.forN n f s)
  | 0, _, _ => trivial
  | n + 1, hf, s => Stays.bind (fun s => hf n (by omega) s) (Stays.forN n (fun i hi => hf i (by omega)) s)

theorem run_bind (f : α → Prog L V β) : ∀ (p : Prog L V α) (m : L → V), run (p.bind f) m =
    match run p m with
    | (.ok a, m') => run (f a) m'
    | (.throw e, m') => (.throw e, m')
    | (.ub e, m') => (.ub e, m')
  | .ret (.ok _), _ => rfl
  | .ret (.throw _), _ => rfl
  | .ret (.ub _), _ => rfl
  | .load l k, m => run_bind f (k (m l)) m
  | .store _ _ k, m => run_bind f k _

theorem run_bind_ok {f : α → Prog L V β} {p : Prog L V α} {m m' : L → V} {a : α} (h : run p m = (ok a, m')) :
    run (p.bind f) m = run (f a) m' := by rw [run_bind, h]

theorem run_bind_ok' {f : α → Prog L V β} {p : Prog L V α} {m m' : L → V} {a : α} (h : run p m = (ok a, m')) :
    run (p >>= f) m = run (f a) m' := run_bind_ok h

/-- A program changes nothing outside its footprint. -/
theorem run_frame {W R : Set L} : ∀ {p : Prog L V α} (m : L → V), Stays W R p → ∀ l, l ∉ W → (run p m).2 l = m l
  | .ret _, _, _, _, _ => rfl
  | .load l k, m, hp, x, hx => run_frame (p := k (m l)) m (hp.2 _) x hx
  | .store l v k, m, hp, x, hx => by
    classical
    show (run k (Function.update m l v)).2 x = m x
    rw [run_frame _ hp.2 x hx, Function.update_of_ne]
    rintro rfl; exact hx hp.1

/-- What a program does depends only on its footprint. -/
theorem run_congr {W R : Set L} : ∀ {p : Prog L V α} {m m' : L → V}, Stays W R p → (∀ l, l ∈ W ∨ l ∈ R → m l = m' l) →
    (run p m).1 = (run p m').1 ∧ (∀ l, l ∈ W ∨ l ∈ R → (run p m).2 l = (run p m').2 l) ∧ cost p m = cost p m'
  | .ret _, _, _, _, h => ⟨rfl, h, rfl⟩
  | .load l k, m, m', hp, h => by
    have e := h l hp.1
    have r := run_congr (p := k (m l)) (hp.2 _) h
    unfold run cost
    rw [← e]
    exact ⟨r.1, r.2.1, by rw [r.2.2]⟩
  | .store l v k, m, m', hp, h => by
    classical
    have r := run_congr (p := k) (m := Function.update m l v) (m' := Function.update m' l v) hp.2 (fun x hx => by
      by_cases e : x = l
      · subst e; rw [Function.update_self, Function.update_self]
      · rw [Function.update_of_ne e, Function.update_of_ne e]; exact h x hx)
    unfold run cost
    exact ⟨r.1, r.2.1, by rw [r.2.2]⟩

/-- Threads with separate footprints. -/
structure Apart {n : ℕ} (W : Fin n → Set L) (R : Set L) (p : Fin n → Prog L V S) : Prop where
  stays : ∀ t, Stays (W t) R (p t)
  disj : ∀ t u, t ≠ u → ∀ l, l ∈ W t → l ∉ W u
  ro : ∀ t l, l ∈ W t → l ∉ R

/-- Invariant of the interleaving. -/
structure PInv {n : ℕ} (W : Fin n → Set L) (R : Set L) (p : Fin n → Prog L V S) (m : L → V) (k : ℕ) (c : Cfg n L V S) : Prop where
  stays : ∀ t, Stays (W t) R (c.todo t)
  res : ∀ t, (run (c.todo t) c.mem).1 = (run (p t) m).1
  mem : ∀ t, ∀ l ∈ W t, (run (c.todo t) c.mem).2 l = (run (p t) m).2 l
  ro : ∀ l, (∀ t, l ∉ W t) → c.mem l = m l
  count : (∑ t, cost (c.todo t) c.mem) + k = ∑ t, cost (p t) m

theorem inv_step {n : ℕ} {W : Fin n → Set L} {R : Set L} {p : Fin n → Prog L V S} {m : L → V} (ha : Apart W R p) {k : ℕ}
    {c d : Cfg n L V S} (hc : PInv W R p m k c) (hs : Step c d) : PInv W R p m (k + 1) d := by
  classical
  cases hs with
  | load t l k' h =>
    have st := hc.stays t
    rw [h] at st
    have e : ∀ u, run (Function.update c.todo t (k' (c.mem l)) u) c.mem = run (c.todo u) c.mem := by
      intro u
      by_cases hu : u = t
      · subst hu; rw [Function.update_self, h]; rfl
      · rw [Function.update_of_ne hu]
    refine ⟨fun u => ?_, fun u => ?_, fun u => ?_, hc.ro, ?_⟩
    · show Stays _ _ (Function.update c.todo t (k' (c.mem l)) u)
      by_cases hu : u = t
      · subst hu; rw [Function.update_self]; exact st.2 _
      · rw [Function.update_of_ne hu]; exact hc.stays u
    · show (run (Function.update c.todo t (k' (c.mem l)) u) c.mem).1 = _
      rw [e u]; exact hc.res u
    · show ∀ l' ∈ W u, (run (Function.update c.todo t (k' (c.mem l)) u) c.mem).2 l' = _
      rw [e u]; exact hc.mem u
    · rw [← hc.count]
      show (∑ u, cost (Function.update c.todo t (k' (c.mem l)) u) c.mem) + (_ + 1) = _
      rw [← Finset.add_sum_erase _ _ (Finset.mem_univ t), ← Finset.add_sum_erase (f := fun u => cost (c.todo u) c.mem) _ (Finset.mem_univ t)]
      rw [Function.update_self, h]
      have : ∑ x ∈ Finset.univ.erase t, cost (Function.update c.todo t (k' (c.mem l)) x) c.mem =
          ∑ x ∈ Finset.univ.erase t, cost (c.todo x) c.mem := by
        refine Finset.sum_congr rfl (fun x hx => ?_)
        rw [Function.update_of_ne (Finset.ne_of_mem_erase hx)]
      rw [this]
      have : cost (.load l k') c.mem = cost (k' (c.mem l)) c.mem + 1 := rfl
      rw [this]; omega
  | store t l v k' h =>
    have st := hc.stays t
    rw [h] at st
    have hag : ∀ u, u ≠ t → ∀ x, x ∈ W u ∨ x ∈ R → Function.update c.mem l v x = c.mem x := by
      intro u hu x hx
      rw [Function.update_of_ne]
      rintro rfl
      rcases hx with hx | hx
      · exact ha.disj u t hu x hx st.1
      · exact ha.ro t x st.1 hx
    refine ⟨fun u => ?_, fun u => ?_, fun u => ?_, fun x hx => ?_, ?_⟩
    · show Stays _ _ (Function.update c.todo t k' u)
      by_cases hu : u = t
      · subst hu; rw [Function.update_self]; exact st.2
      · rw [Function.update_of_ne hu]; exact hc.stays u
    · show (run (Function.update c.todo t k' u) (Function.update c.mem l v)).1 = _
      by_cases hu : u = t
      · subst hu; rw [Function.update_self]; have := hc.res u; rw [h] at this; exact this
      · rw [Function.update_of_ne hu, (run_congr (hc.stays u) (hag u hu)).1]; exact hc.res u
    · show ∀ l' ∈ W u, (run (Function.update c.todo t k' u) (Function.update c.mem l v)).2 l' = _
      by_cases hu : u = t
      · subst hu; rw [Function.update_self]; have := hc.mem u; rw [h] at this; exact this
      · intro x hx
        rw [Function.update_of_ne hu, (run_congr (hc.stays u) (hag u hu)).2.1 x (Or.inl hx)]; exact hc.mem u x hx
    · show Function.update c.mem l v x = _
      rw [Function.update_of_ne (by rintro rfl; exact hx t st.1)]; exact hc.ro x hx
    · rw [← hc.count]
      show (∑ u, cost (Function.update c.todo t k' u) (Function.update c.mem l v)) + (_ + 1) = _
      rw [← Finset.add_sum_erase _ _ (Finset.mem_univ t), ← Finset.add_sum_erase (f := fun u => cost (c.todo u) c.mem) _ (Finset.mem_univ t)]
      rw [Function.update_self, h]
      have : ∑ x ∈ Finset.univ.erase t, cost (Function.update c.todo t k' x) (Function.update c.mem l v) =
          ∑ x ∈ Finset.univ.erase t, cost (c.todo x) c.mem := by
        refine Finset.sum_congr rfl (fun x hx => ?_)
        have hx := Finset.ne_of_mem_erase hx
        rw [Function.update_of_ne hx]
        exact (run_congr (hc.stays x) (hag x hx)).2.2
      rw [this]
      have : cost (.store l v k') c.mem = cost k' (Function.update c.mem l v) + 1 := by
        show cost k' _ + 1 = _; congr 1
      rw [this]; omega

theorem inv_start {n : ℕ} {W : Fin n → Set L} {R : Set L} {P : Phase n L V S} {m : L → V} {s : Fin n → S}
    (ha : Apart W R (fun t => P t (s t))) : PInv W R (fun t => P t (s t)) m 0 (start P m s) :=
  ⟨ha.stays, fun _ => rfl, fun _ _ _ => rfl, fun _ _ => rfl, rfl⟩

theorem inv_stepsN {n : ℕ} {W : Fin n → Set L} {R : Set L} {p : Fin n → Prog L V S} {m : L → V} (ha : Apart W R p)
    {k j : ℕ} {c d : Cfg n L V S} (hc : PInv W R p m j c) (hs : StepsN k c d) : PInv W R p m (j + k) d := by
  induction hs with
  | refl => exact hc
  | tail _ h ih => exact inv_step ha (ih hc) h

theorem steps_stepsN {n : ℕ} {c d : Cfg n L V S} (h : Steps c d) : ∃ k, StepsN k c d := by
  induction h with
  | refl => exact ⟨0, .refl _⟩
  | tail _ h ih => obtain ⟨k, hk⟩ := ih; exact ⟨k + 1, .tail hk h⟩

theorem inv_steps {n : ℕ} {W : Fin n → Set L} {R : Set L} {P : Phase n L V S} {m : L → V} {s : Fin n → S}
    (ha : Apart W R (fun t => P t (s t))) {c : Cfg n L V S} (hs : Steps (start P m s) c) :
    ∃ k, PInv W R (fun t => P t (s t)) m k c := by
  obtain ⟨k, hk⟩ := steps_stepsN hs
  exact ⟨0 + k, inv_stepsN ha (inv_start ha) hk⟩

/-- Threads with separate footprints never race. -/
theorem no_race {n : ℕ} {W : Fin n → Set L} {R : Set L} {p : Fin n → Prog L V S} {m : L → V} (ha : Apart W R p) {k : ℕ}
    {c : Cfg n L V S} (hc : PInv W R p m k c) : ¬ Race c := by
  rintro ⟨t, u, l, htu, ⟨v, k, hk⟩, hu⟩
  have st := hc.stays t
  rw [hk] at st
  have su := hc.stays u
  have key : l ∈ W u ∨ l ∈ R := by
    rcases hu with ⟨k', hk'⟩ | ⟨v', k', hk'⟩
    · rw [hk'] at su; exact su.1
    · rw [hk'] at su; exact Or.inl su.1
  rcases key with h | h
  · exact ha.disj t u htu l st.1 h
  · exact ha.ro t l st.1 h

/-- If every thread alone ends normally, no configuration is broken. -/
theorem no_broken {n : ℕ} {W : Fin n → Set L} {R : Set L} {p : Fin n → Prog L V S} {m : L → V} {k : ℕ}
    {c : Cfg n L V S} (hc : PInv W R p m k c) (hok : ∀ t, ∃ s, (run (p t) m).1 = ok s) : ¬ Broken c := by
  rintro ⟨t, ⟨e, he⟩ | ⟨e, he⟩⟩ <;>
  · have := hc.res t
    obtain ⟨s, hs⟩ := hok t
    rw [he, hs] at this
    cases this

/-- While not all threads have arrived, some thread can act; and a step is always one of finitely many. -/
theorem progress {n : ℕ} (c : Cfg n L V S) (hb : ¬ Broken c) (h : ∀ s, ¬ Arrived c s) : ∃ d, Step c d := by
  by_contra hn
  have key : ∀ t, ∃ s, c.todo t = .ret (ok s) := by
    intro t
    cases hp : c.todo t with
    | ret r =>
      cases r with
      | ok a => exact ⟨a, rfl⟩
      | throw e => exact absurd ⟨t, Or.inr ⟨e, hp⟩⟩ hb
      | ub e => exact absurd ⟨t, Or.inl ⟨e, hp⟩⟩ hb
    | load l k => exact absurd ⟨_, .load t l k hp⟩ hn
    | store l v k => exact absurd ⟨_, .store t l v k hp⟩ hn
  choose s hs using key
  exact h s hs

/-- The result of the phase, at the barrier. -/
theorem arrived_spec {n : ℕ} {W : Fin n → Set L} {R : Set L} {p : Fin n → Prog L V S} {m : L → V} {k : ℕ}
    {c : Cfg n L V S} (hc : PInv W R p m k c) {s : Fin n → S} (hs : Arrived c s) :
    (∀ t, (run (p t) m).1 = ok (s t)) ∧ (∀ t, ∀ l ∈ W t, c.mem l = (run (p t) m).2 l) ∧
      ∀ l, (∀ t, l ∉ W t) → c.mem l = m l := by
  refine ⟨fun t => ?_, fun t l hl => ?_, hc.ro⟩
  · have := hc.res t; rw [hs t] at this; exact this.symm
  · have := hc.mem t l hl; rw [hs t] at this; exact this

/-- At most as many actions as the threads alone would perform. -/
theorem steps_bound {n : ℕ} {W : Fin n → Set L} {R : Set L} {P : Phase n L V S} {m : L → V} {s : Fin n → S}
    (ha : Apart W R (fun t => P t (s t))) {k : ℕ} {c : Cfg n L V S} (hs : StepsN k (start P m s) c) :
    k ≤ ∑ t, cost (P t (s t)) m := by
  have := (inv_stepsN ha (inv_start ha) hs).count
  omega

end Verif.Par
