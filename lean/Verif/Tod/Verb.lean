import Verif.Tod.KernFail
import Verif.Tod.Witness

/-!
# C66: the log

`convolve` performs collectives for its log: barriers for `verbosity > 5`, the reductions of `report_timing` for `verbosity > 0`.
Every rank decides by its own `verbosity`.  Here: the verbosity does not influence the results if all ranks agree on the two
classes; a job whose ranks disagree never returns.
-/

set_option linter.unusedSectionVars false

namespace Verif.Spmd
open Verif Res Prog

variable {α : Type}

/-! ## programs without reductions -/

/-- The program never issues a reduction of the timing report. -/
def NoRed {β : Type} : Prog α β → Prop
  | .done _ => True
  | .call c k => (∀ o l a, c ≠ .reduce o l a) ∧ ∀ a, NoRed (k a)

theorem NoRed.bind {β γ : Type} {p : Prog α β} {f : β → Prog α γ} (hp : NoRed p) (hf : ∀ b, NoRed (f b)) : NoRed (p >>= f) := by
  induction p with
  | done r => cases r with
    | ok b => exact hf b
    | throw m => trivial
    | ub m => trivial
  | call c k ih => exact ⟨hp.1, fun a => ih a (hp.2 a)⟩

theorem NoRed.lift {β : Type} (r : Res β) : NoRed (Prog.lift r : Prog α β) := trivial

theorem NoRed.coll {c : Coll α} (h : ∀ o l a, c ≠ .reduce o l a) : NoRed (collective c) := ⟨h, fun _ => trivial⟩

theorem exec_length {cs : List (Coll α)} {as : List (Ans α)} (h : exec cs = some as) : as.length = cs.length := by
  unfold exec at h
  split at h
  · cases h
  · split at h
    · injection h with h; rw [← h]; simp
    · cases h
  · obtain ⟨x, _, h⟩ := Option.map_eq_some_iff.mp h; rw [← h]; simp
  · obtain ⟨x, _, h⟩ := Option.map_eq_some_iff.mp h; rw [← h]; simp
  · obtain ⟨x, _, h⟩ := Option.bind_eq_some_iff.mp h
    split at h
    · injection h with h; rw [← h]; simp
    · cases h
  · obtain ⟨x, _, h⟩ := Option.bind_eq_some_iff.mp h
    split at h
    · injection h with h; rw [← h]; simp
    · cases h
  · obtain ⟨x, _, h⟩ := Option.bind_eq_some_iff.mp h
    split at h
    · injection h with h; rw [← h]; simp
    · cases h
  · obtain ⟨x, _, h⟩ := Option.bind_eq_some_iff.mp h
    split at h
    · injection h with h; rw [← h]; simp
    · cases h
  · obtain ⟨x, _, h⟩ := Option.bind_eq_some_iff.mp h
    split at h
    · injection h with h; rw [← h]; simp
    · cases h
  · obtain ⟨x, _, h⟩ := Option.map_eq_some_iff.mp h; rw [← h]; simp
  · obtain ⟨x, _, h⟩ := Option.bind_eq_some_iff.mp h
    split at h
    · injection h with h; rw [← h]; simp
    · cases h
  · split at h
    · injection h with h; rw [← h]; simp
    · cases h

/-- A reduction and another collective do not match. -/
theorem exec_red_mix {cs : List (Coll α)} {o : RedOp} {l a : Bool} (h1 : Coll.reduce o l a ∈ cs) {c : Coll α} (h2 : c ∈ cs)
    (hc : ∀ o l a, c ≠ .reduce o l a) : exec cs = none := by
  unfold exec
  cases cs with
  | nil => rfl
  | cons d cs =>
    cases d with
    | barrier =>
      simp only [List.head?_cons]
      rw [if_neg]
      intro hall
      have := List.all_eq_true.mp hall _ h1
      simp [Coll.isBarrier] at this
    | scan x => simp only [List.head?_cons]; rw [mapM_none Coll.getScan _ _ h1 rfl]; rfl
    | sumInt x => simp only [List.head?_cons]; rw [mapM_none Coll.getSumInt _ _ h1 rfl]; rfl
    | sumArr x => simp only [List.head?_cons]; rw [mapM_none Coll.getSumArr _ _ h1 rfl]; rfl
    | borArr x => simp only [List.head?_cons]; rw [mapM_none Coll.getBor _ _ h1 rfl]; rfl
    | gather x => simp only [List.head?_cons]; rw [mapM_none Coll.getGather _ _ h1 rfl]; rfl
    | alltoall x => simp only [List.head?_cons]; rw [mapM_none Coll.getA2a _ _ h1 rfl]; rfl
    | alltoallv x y => simp only [List.head?_cons]; rw [mapM_none Coll.getA2av _ _ h1 rfl]; rfl
    | bcastInt x => simp only [List.head?_cons]; rw [mapM_none Coll.getBcastInt _ _ h1 rfl]; rfl
    | bcast x => simp only [List.head?_cons]; rw [mapM_none Coll.getBcast _ _ h1 rfl]; rfl
    | reduce o' l' a' =>
      simp only [List.head?_cons]
      rw [if_neg]
      intro hall
      have := List.all_eq_true.mp hall _ h2
      cases c with
      | reduce o l a => exact hc o l a rfl
      | _ => simp [Coll.isReduce] at this

/-- Where a job that returns is decided: if the first part of every rank contains no reduction, and its second part ends at once or
starts with a reduction, then all ranks complete the first part together. -/
theorem exec_of_returns {β γ : Type} {n : Nat} (hn : 1 ≤ n) : ∀ (p : Prog α β) (P : Nat → Prog α β) (f : Nat → β → Prog α γ), P 0 = p →
    (∀ r < n, NoRed (P r)) → (∀ r b, (∃ c, f r b = .done (.ok c)) ∨ ∃ o l a k, f r b = .call (.reduce o l a) k) →
    ∀ {v : Nat → γ}, Returns n (fun r => P r >>= f r) v → ∃ w : Nat → β, Exec n P w := by
  intro p
  induction p with
  | done x =>
    intro P f h0 hP hf v hret
    -- every rank is done
    have hall : ∀ r < n, ∃ b, P r = .done (.ok b) := by
      have hx : ∃ b, x = .ok b := by
        cases x with
        | ok b => exact ⟨b, rfl⟩
        | throw m => exact absurd hret (not_returns_of_bad hn (s := 0) (by omega) ⟨.throw m, by rw [h0]; rfl, by simp⟩ v)
        | ub m => exact absurd hret (not_returns_of_bad hn (s := 0) (by omega) ⟨.ub m, by rw [h0]; rfl, by simp⟩ v)
      obtain ⟨b0, rfl⟩ := hx
      intro r hr
      cases hp : P r with
      | done y =>
        cases y with
        | ok b => exact ⟨b, rfl⟩
        | throw m => exact absurd hret (not_returns_of_bad hn hr ⟨.throw m, by rw [hp]; rfl, by simp⟩ v)
        | ub m => exact absurd hret (not_returns_of_bad hn hr ⟨.ub m, by rw [hp]; rfl, by simp⟩ v)
      | call c k =>
        exfalso
        unfold Returns at hret
        rcases hf 0 b0 with ⟨d, hd⟩ | ⟨o, l, a, k', hd⟩
        · rw [runAll_stuck_of_mix _ r 0 hr (by omega) (by rw [hp]; rfl) (by rw [h0]; show (f 0 b0).getCall = none; rw [hd]; rfl)] at hret
          cases hret
        · -- all ranks must be in a collective
          by_cases hc : ∀ q < n, ∃ c k, (P q >>= f q) = Prog.call c k
          · have : Nonempty (Coll α) := ⟨.barrier⟩
            have : Nonempty (Ans α → Prog α γ) := ⟨fun _ => .done (.ub "")⟩
            choose! cc kk hck using hc
            have e0 : cc 0 = .reduce o l a := by
              have := hck 0 (by omega)
              rw [h0] at this
              have h' : f 0 b0 = Prog.call (cc 0) (kk 0) := this
              rw [hd] at h'
              injection h' with h' _
              exact h'.symm
            have er : cc r = c := by
              have := hck r hr
              rw [hp] at this
              simp only [call_bind] at this
              injection this with h' _
              exact h'.symm
            have hno := (hP r hr)
            rw [hp] at hno
            have hex : exec ((List.range n).map cc) = none :=
              exec_red_mix (List.mem_map.mpr ⟨0, List.mem_range.mpr (by omega), e0⟩) (List.mem_map.mpr ⟨r, List.mem_range.mpr hr, er⟩) hno.1
            rw [runAll_congr hn hck, runAll_stuck_of_exec hn cc kk hex] at hret
            cases hret
          · push Not at hc
            obtain ⟨q, hq, hq'⟩ := hc
            rw [runAll_stuck_of_mix _ r q hr hq (by rw [hp]; rfl) (by
              cases hx : (P q >>= f q) with
              | done y => rfl
              | call c' k'' => exact absurd hx (hq' c' k''))] at hret
            cases hret
    have hne : Nonempty β := by obtain ⟨b, _⟩ := hall 0 (by omega); exact ⟨b⟩
    choose! w hw using hall
    exact ⟨w, fun δ g => .refl (fun r hr => by rw [hw r hr]; rfl)⟩
  | call c k ih =>
    intro P f h0 hP hf v hret
    have hcall : ∀ r < n, ∃ c k, P r = .call c k := by
      intro r hr
      cases hp : P r with
      | call c k => exact ⟨c, k, rfl⟩
      | done y =>
        exfalso
        cases y with
        | throw m => exact absurd hret (not_returns_of_bad hn hr ⟨.throw m, by rw [hp]; rfl, by simp⟩ v)
        | ub m => exact absurd hret (not_returns_of_bad hn hr ⟨.ub m, by rw [hp]; rfl, by simp⟩ v)
        | ok b =>
          unfold Returns at hret
          rcases hf r b with ⟨d, hd⟩ | ⟨o, l, a, k', hd⟩
          · rw [runAll_stuck_of_mix _ 0 r (by omega) hr (by rw [h0]; rfl) (by rw [hp]; show (f r b).getCall = none; rw [hd]; rfl)] at hret
            cases hret
          · by_cases hc : ∀ q < n, ∃ c k, (P q >>= f q) = Prog.call c k
            · have : Nonempty (Coll α) := ⟨.barrier⟩
              have : Nonempty (Ans α → Prog α γ) := ⟨fun _ => .done (.ub "")⟩
              choose! cc kk hck using hc
              have er : cc r = .reduce o l a := by
                have := hck r hr
                rw [hp] at this
                have h' : f r b = Prog.call (cc r) (kk r) := this
                rw [hd] at h'
                injection h' with h' _
                exact h'.symm
              have e0 : cc 0 = c := by
                have := hck 0 (by omega)
                rw [h0] at this
                simp only [call_bind] at this
                injection this with h' _
                exact h'.symm
              have hno := (hP 0 (by omega))
              rw [h0] at hno
              have hex : exec ((List.range n).map cc) = none :=
                exec_red_mix (List.mem_map.mpr ⟨r, List.mem_range.mpr hr, er⟩) (List.mem_map.mpr ⟨0, List.mem_range.mpr (by omega), e0⟩) hno.1
              rw [runAll_congr hn hck, runAll_stuck_of_exec hn cc kk hex] at hret
              cases hret
            · push Not at hc
              obtain ⟨q, hq, hq'⟩ := hc
              rw [runAll_stuck_of_mix _ 0 q (by omega) hq (by rw [h0]; rfl) (by
                cases hx : (P q >>= f q) with
                | done y => rfl
                | call c' k'' => exact absurd hx (hq' c' k''))] at hret
              cases hret
    have : Nonempty (Coll α) := ⟨.barrier⟩
    have : Nonempty (Ans α → Prog α β) := ⟨fun _ => .done (.ub "")⟩
    choose! cc kk hck using hcall
    have hb : ∀ r < n, (P r >>= f r) = Prog.call (cc r) (fun a => kk r a >>= f r) := by
      intro r hr; rw [hck r hr]; rfl
    unfold Returns at hret
    cases hx : exec ((List.range n).map cc) with
    | none =>
      rw [runAll_congr hn hb, runAll_stuck_of_exec hn cc _ hx] at hret
      cases hret
    | some as =>
      have hl := exec_length hx
      simp only [List.length_map, List.length_range] at hl
      have has : as = (List.range n).map (fun r => as.getD r .unit) := by
        apply List.ext_getElem (by simp [hl])
        intro i h1 h2
        simp [List.getD, h1]
      rw [has] at hx
      rw [runAll_congr hn hb, runAll_call hn cc _ _ hx] at hret
      have hk0 : kk 0 = k := by
        have := hck 0 (by omega)
        rw [h0] at this
        injection this with _ h'
        exact h'.symm
      obtain ⟨w, hw⟩ := ih (as.getD 0 .unit) (fun r => kk r (as.getD r .unit)) f (by simp only [hk0])
        (fun r hr => by have := hP r hr; rw [hck r hr] at this; exact this.2 _) hf hret
      exact ⟨w, fun δ g => .step cc (fun r a => kk r a >>= g r) _ (fun r hr => by rw [hck r hr]; rfl) hx (hw δ g)⟩

end Verif.Spmd

namespace Verif.Tod
open Verif Res Spmd

variable {F : Type} [Arith F]

/-! ## `convolve` without the report -/

/-- `exchange` up to the report. -/
def exchangeBase (e : Env F) (cores me : Nat) (totsize : Nat) (sh : Shuffle F) : Prog F (List (Row F)) :=
  sendRecv cores totsize (segSize cores sh.outSeg) sh.packed sh.inSeg sh.outSeg (segSize cores sh.outSeg) >>= fun recv =>
  middle e cores me recv >>= fun restored =>
  sendRecv cores totsize recv.length restored sh.outSeg sh.inSeg (5 * totsize) >>= fun back =>
  Prog.lift (if totsize ≠ 0 then scatter back (sh.order.zip back) else ok back) >>= fun final =>
  Prog.lift (ok (calibrated e final))

theorem exchange_base (e : Env F) (cores me : Nat) (totsize : Nat) (sh : Shuffle F) :
    exchange e cores me totsize sh = (exchangeBase e cores me totsize sh >>= fun rows => reportTiming (e.verb me) >>= fun _ =>
      Prog.lift (ok rows)) := by
  unfold exchange exchangeBase
  simp only [Prog.bind_assoc, Prog.lift_ok_bind]

def convolveBase (e : Env F) (cores me : Nat) (rows0 : List (Row F)) : Prog F (List (Row F)) :=
  prepare e cores rows0 >>= fun sh => exchangeBase e cores me rows0.length sh

theorem convolve_base (e : Env F) (cores me : Nat) (rows0 : List (Row F)) :
    convolve e cores me rows0 = (convolveBase e cores me rows0 >>= fun rows => reportTiming (e.verb me) >>= fun _ =>
      Prog.lift (ok rows)) := by
  unfold convolve convolveBase
  simp only [Prog.bind_assoc, exchange_base]

/-! ### no reductions before the report -/

theorem noRed_lift_coll {β : Type} {c : Coll F} (h : ∀ o l a, c ≠ .reduce o l a) (g : Ans F → Res β) :
    NoRed (collective c >>= fun a => Prog.lift (g a)) := NoRed.bind (NoRed.coll h) (fun _ => NoRed.lift _)

theorem noRed_barrier : NoRed (barrier : Prog F Unit) := noRed_lift_coll (by simp) _
theorem noRed_scan (x : Int) : NoRed (scanSum x : Prog F Int) := noRed_lift_coll (by simp) _
theorem noRed_sum (x : Int) : NoRed (allSum x : Prog F Int) := noRed_lift_coll (by simp) _
theorem noRed_sumArr (x : List Int) : NoRed (allSumArr x : Prog F (List Int)) := noRed_lift_coll (by simp) _
theorem noRed_bor (x : List Bool) : NoRed (allBor x : Prog F (List Bool)) := noRed_lift_coll (by simp) _
theorem noRed_gather (x : List Bool) : NoRed (allGather x : Prog F (List (List Bool))) := noRed_lift_coll (by simp) _
theorem noRed_all2all (x : List Nat) : NoRed (all2all x : Prog F (List Nat)) := noRed_lift_coll (by simp) _

theorem noRed_times {p : Prog F Unit} (h : NoRed p) : ∀ k, NoRed (times p k)
  | 0 => trivial
  | k + 1 => NoRed.bind h (fun _ => noRed_times h k)

theorem noRed_a2av (cores : Nat) (buf : List F) (sc sd rc rdp : List Nat) (out : Nat) : NoRed (a2av cores buf sc sd rc rdp out) := by
  unfold a2av
  refine NoRed.bind (NoRed.lift _) fun _ => NoRed.bind (NoRed.lift _) fun _ => NoRed.bind (NoRed.coll (by simp)) fun _ =>
    NoRed.bind (NoRed.lift _) fun _ => NoRed.lift _

theorem noRed_a2aCube (c : Cfg) (cores : Nat) (needOf : List (List Bool)) (owner : List Int) (mine : List Nat)
    (myTod : List (List F)) (off n : Int) : NoRed (a2aCube c cores needOf owner mine myTod off n) := by
  unfold a2aCube
  refine NoRed.bind (NoRed.lift _) fun _ => NoRed.bind (NoRed.lift _) fun _ => NoRed.bind (NoRed.lift _) fun _ =>
    NoRed.bind (noRed_a2av _ _ _ _ _ _ _) fun _ => NoRed.lift _

theorem noRed_latTables (nan : Res Int) (c : Cfg) (cores me : Nat) (off1 n1 off2 n2 : Int) :
    NoRed (latTables nan c cores me off1 n1 off2 n2 : Prog F _) := by
  unfold latTables
  refine NoRed.bind (NoRed.lift _) fun _ => NoRed.bind (NoRed.lift _) fun _ => NoRed.bind (noRed_bor _) fun _ =>
    NoRed.bind (noRed_bor _) fun _ => NoRed.bind (noRed_gather _) fun _ => NoRed.bind (noRed_gather _) fun _ =>
    NoRed.bind (NoRed.lift _) fun _ => NoRed.lift _

theorem noRed_hemis (nan : Res Int) (c : Cfg) (cores me : Nat) (kern : List Nat → Res (List (List F) × List (List F)))
    (off1 n1 off2 n2 : Int) : NoRed (hemis nan c cores me kern off1 n1 off2 n2) := by
  unfold hemis
  refine NoRed.bind (noRed_latTables _ _ _ _ _ _ _ _) fun _ => NoRed.bind (NoRed.lift _) fun _ =>
    NoRed.bind (noRed_a2aCube _ _ _ _ _ _ _ _) fun _ => NoRed.bind (noRed_a2aCube _ _ _ _ _ _ _ _) fun _ => NoRed.lift _

theorem noRed_chatter (v : Int) (cores : Nat) : NoRed (chatter v cores : Prog F Unit) := by
  unfold chatter
  split
  · exact noRed_times noRed_barrier _
  · trivial

theorem noRed_interpol (e : Env F) (cores me : Nat) (north south : List (Row F)) : NoRed (interpolTOD e cores me north south) := by
  unfold interpolTOD
  refine NoRed.bind (NoRed.lift _) fun _ => NoRed.bind (NoRed.lift _) fun _ => NoRed.bind (noRed_chatter _ _) fun _ =>
    NoRed.bind (noRed_hemis _ _ _ _ _ _ _ _ _) fun _ => NoRed.bind (NoRed.lift _) fun _ => NoRed.bind (NoRed.lift _) fun _ => NoRed.lift _

theorem noRed_middle (e : Env F) (cores me : Nat) (recv : List (Row F)) : NoRed (middle e cores me recv) := by
  unfold middle todgen
  refine NoRed.bind (NoRed.lift _) fun _ => NoRed.bind (NoRed.lift _) fun _ => NoRed.bind ?_ fun _ => NoRed.lift _
  refine NoRed.bind (NoRed.lift _) fun _ => NoRed.bind (NoRed.lift _) fun _ => NoRed.bind noRed_barrier fun _ =>
    NoRed.bind (noRed_interpol _ _ _ _ _) fun _ => NoRed.bind (NoRed.lift _) fun _ => NoRed.lift _

theorem noRed_sendRecv (cores : Nat) (size other : Nat) (rows : List (Row F)) (sc rc : List Nat) (out : Nat) :
    NoRed (sendRecv cores size other rows sc rc out) := by
  unfold sendRecv
  split
  · exact NoRed.bind noRed_barrier fun _ => NoRed.bind (noRed_a2av _ _ _ _ _ _ _) fun _ => NoRed.lift _
  · trivial

theorem noRed_convolve (e : Env F) (cores me : Nat) (rows : List (Row F)) : NoRed (convolveBase e cores me rows) := by
  unfold convolveBase prepare distribute exchangeBase
  refine NoRed.bind ?_ fun _ => NoRed.bind (noRed_sendRecv _ _ _ _ _ _ _) fun _ => NoRed.bind (noRed_middle _ _ _ _) fun _ =>
    NoRed.bind (noRed_sendRecv _ _ _ _ _ _ _) fun _ => NoRed.bind (NoRed.lift _) fun _ => NoRed.lift _
  refine NoRed.bind noRed_barrier fun _ => NoRed.bind (noRed_scan _) fun _ => NoRed.bind (NoRed.lift _) fun _ =>
    NoRed.bind ?_ fun _ => NoRed.bind (NoRed.lift _) fun _ => NoRed.bind noRed_barrier fun _ =>
    NoRed.bind (noRed_all2all _) fun _ => NoRed.bind (NoRed.lift _) fun _ => NoRed.bind (NoRed.lift _) fun _ => NoRed.lift _
  exact NoRed.bind (noRed_sum _) fun _ => NoRed.bind (NoRed.lift _) fun _ => NoRed.bind (noRed_sumArr _) fun _ => NoRed.lift _

/-! ## the report -/

theorem report_shape (v : Int) (rows : List (Row F)) :
    (¬ 0 < v ∧ ((reportTiming v : Prog F Unit) >>= fun _ => Prog.lift (ok rows)) = .done (ok rows)) ∨
    (0 < v ∧ ∃ o l a k, ((reportTiming v : Prog F Unit) >>= fun _ => (Prog.lift (ok rows) : Prog F _)) = .call (.reduce o l a) k) := by
  unfold reportTiming
  by_cases h : 0 < v
  · right
    rw [if_pos h]
    exact ⟨h, _, _, _, _, rfl⟩
  · left
    rw [if_neg h]
    exact ⟨h, rfl⟩

/-- A job that returns has run through everything but the report. -/
theorem base_exec (e : Env F) {n : Nat} (hn : 1 ≤ n) (R : Nat → List (Row F)) {v : Nat → List (Row F)}
    (h : Returns n (job e n R) v) : ∃ w, Exec n (fun r => convolveBase e n r (R r)) w := by
  unfold job at h
  simp only [convolve_base] at h
  exact exec_of_returns hn _ _ _ rfl (fun r _ => noRed_convolve _ _ _ _) (fun r b => by
    rcases report_shape (F := F) (e.verb r) b with ⟨_, h⟩ | ⟨_, h⟩
    · exact Or.inl ⟨b, h⟩
    · exact Or.inr h) h

/-- **C66** (finding) Ranks that disagree whether `verbosity` is positive: the job never returns, whatever the platform, the
pointing and the number of ranks. -/
theorem C66_mixed_report_never_returns (e : Env F) {n : Nat} (R : Nat → List (Row F)) {r s : Nat} (hr : r < n) (hs : s < n)
    (h1 : 0 < e.verb r) (h2 : e.verb s ≤ 0) (v : Nat → List (Row F)) : ¬ Returns n (job e n R) v := by
  intro h
  have hn : 1 ≤ n := by omega
  obtain ⟨w, hw⟩ := base_exec e hn R h
  unfold Returns job at h
  simp only [convolve_base] at h
  rw [(hw _ _).runAll_eq hn] at h
  rw [runAll_stuck_of_mix _ r s hr hs] at h
  · cases h
  · rcases report_shape (F := F) (e.verb r) (w r) with ⟨x, _⟩ | ⟨_, o, l, a, k, hx⟩
    · exact absurd h1 x
    · rw [hx]; rfl
  · rcases report_shape (F := F) (e.verb s) (w s) with ⟨_, hx⟩ | ⟨x, _⟩
    · rw [hx]; rfl
    · omega

theorem chatter_congr {v v' : Int} (h : 5 < v ↔ 5 < v') (cores : Nat) : (chatter v cores : Prog F Unit) = chatter v' cores := by
  unfold chatter
  by_cases hv : 5 < v
  · rw [if_pos hv, if_pos (h.mp hv)]
  · rw [if_neg hv, if_neg (fun x => hv (h.mpr x))]

theorem convolveBase_congr (e : Env F) (verb' : Nat → Int) (cores me : Nat) (rows : List (Row F))
    (h : 5 < e.verb me ↔ 5 < verb' me) : convolveBase { e with verb := verb' } cores me rows = convolveBase e cores me rows := by
  have hi : ∀ a b, interpolTOD { e with verb := verb' } cores me a b = interpolTOD e cores me a b := by
    intro a b
    unfold interpolTOD
    simp only
    rw [chatter_congr h]
  have hm : ∀ x, middle { e with verb := verb' } cores me x = middle e cores me x := by
    intro x
    unfold middle todgen
    simp only [hi]
  unfold convolveBase exchangeBase
  simp only [hm]
  rfl

/-- Executing the report after the base. -/
theorem report_exec {n : Nat} (hn : 1 ≤ n) {verb : Nat → Int} (h : ∀ r < n, ∀ s < n, (0 < verb r ↔ 0 < verb s)) :
    Exec n (fun r => (reportTiming (verb r) : Prog F Unit)) (fun _ => ()) := by
  have hv : SameVerb (fun _ => verb 0) := SameVerb.const _
  refine Exec.congr hn (fun r hr => ?_) (fun _ _ => rfl) (reportTiming_exec (F := F) hn hv)
  unfold reportTiming
  by_cases h0 : 0 < verb 0
  · rw [if_pos h0, if_pos ((h r hr 0 (by omega)).mpr h0)]
  · rw [if_neg h0, if_neg (fun x => h0 ((h r hr 0 (by omega)).mp x))]

/-- What a job that returns has computed before the report. -/
theorem base_returns (e : Env F) {n : Nat} (hn : 1 ≤ n) (R : Nat → List (Row F)) {v : Nat → List (Row F)}
    (h : Returns n (job e n R) v) : Exec n (fun r => convolveBase e n r (R r)) v := by
  obtain ⟨w, hw⟩ := base_exec e hn R h
  have hu : ∀ r < n, ∀ s < n, (0 < e.verb r ↔ 0 < e.verb s) := by
    intro r hr s hs
    by_contra hc
    rcases lt_or_ge 0 (e.verb r) with h1 | h1
    · exact C66_mixed_report_never_returns e R hr hs h1 (by omega) v h
    · exact C66_mixed_report_never_returns e R hs hr (by omega) h1 v h
  have hj : Exec n (job e n R) w := by
    refine Exec.congr hn (fun r _ => (convolve_base e n r (R r)).symm) (fun _ _ => rfl) ?_
    exact Exec.seq hw (Exec.seq (report_exec hn hu) (Exec.local hn (fun _ _ => rfl)))
  exact Exec.congr hn (fun _ _ => rfl) (fun r hr => (Returns.unique h (hj.finish hn) r hr).symm) hw

/-- **C66** Printing the timing report or not changes nothing: a job that returns also returns, with the same rows, for other
values of the verbosity, as long as all ranks agree on whether it is positive (and every rank stays on its side of 5). -/
theorem C66_report_irrelevant_partial (e : Env F) {n : Nat} (hn : 1 ≤ n) (R : Nat → List (Row F)) {v : Nat → List (Row F)}
    (h : Returns n (job e n R) v) (verb' : Nat → Int) (h5 : ∀ r < n, (5 < e.verb r ↔ 5 < verb' r))
    (h0 : ∀ r < n, ∀ s < n, (0 < verb' r ↔ 0 < verb' s)) : Returns n (job { e with verb := verb' } n R) v := by
  have hj : Exec n (job { e with verb := verb' } n R) v := by
    refine Exec.congr hn (fun r _ => (convolve_base _ n r (R r)).symm) (fun _ _ => rfl) ?_
    refine Exec.seq (Exec.congr hn (fun r hr => (convolveBase_congr e verb' n r (R r) (h5 r hr)).symm) (fun _ _ => rfl)
      (base_returns e hn R h)) ?_
    exact Exec.seq (report_exec hn h0) (Exec.local hn (fun _ _ => rfl))
  exact hj.finish hn

/-- **C66** (finding) A job that returns blocks for ever if a rank is given a positive and another one a non-positive
verbosity: all samples have been computed, but the ranks with the positive verbosity wait in the reductions of the report. -/
theorem C66_mixed_report_hangs (e : Env F) {n : Nat} (R : Nat → List (Row F)) {v : Nat → List (Row F)}
    (h : Returns n (job e n R) v) (verb' : Nat → Int) (h5 : ∀ r < n, (5 < e.verb r ↔ 5 < verb' r)) {r s : Nat} (hr : r < n) (hs : s < n)
    (h1 : 0 < verb' r) (h2 : verb' s ≤ 0) : runAll n (job { e with verb := verb' } n R) = .stuck := by
  have hn : 1 ≤ n := by omega
  have hb : Exec n (fun r => convolveBase { e with verb := verb' } n r (R r)) v :=
    Exec.congr hn (fun r hr => (convolveBase_congr e verb' n r (R r) (h5 r hr)).symm) (fun _ _ => rfl) (base_returns e hn R h)
  unfold job
  simp only [convolve_base]
  rw [(hb _ _).runAll_eq hn, runAll_stuck_of_mix _ r s hr hs]
  · rcases report_shape (F := F) (verb' r) (v r) with ⟨x, _⟩ | ⟨_, o, l, a, k, hx⟩
    · exact absurd h1 x
    · rw [hx]; rfl
  · rcases report_shape (F := F) (verb' s) (v s) with ⟨_, hx⟩ | ⟨x, _⟩
    · rw [hx]; rfl
    · omega

/-! ## the barriers of `verbosity > 5` -/

/-- Whatever follows, the job is stuck in this part. -/
def ExecStuck {α β : Type} (n : Nat) (P : Nat → Prog α β) : Prop :=
  ∀ (γ : Type) (f : Nat → β → Prog α γ), runAll n (fun r => P r >>= f r) = .stuck

theorem ExecStuck.right {α β γ : Type} {n : Nat} (hn : 1 ≤ n) {P : Nat → Prog α β} {v : Nat → β} {Q : Nat → β → Prog α γ} (h1 : Exec n P v)
    (h2 : ExecStuck n (fun r => Q r (v r))) : ExecStuck n (fun r => P r >>= Q r) := by
  intro δ f
  rw [(h1.steps Q f).runAll_eq hn]
  exact h2 δ f

theorem ExecStuck.left {α β γ : Type} {n : Nat} {P : Nat → Prog α β} {Q : Nat → β → Prog α γ} (h : ExecStuck n P) :
    ExecStuck n (fun r => P r >>= Q r) := by
  intro δ f
  simp only [Prog.bind_assoc]
  exact h δ _

theorem ExecStuck.congr {α β : Type} {n : Nat} (hn : 1 ≤ n) {P Q : Nat → Prog α β} (hP : ∀ r < n, P r = Q r) (h : ExecStuck n P) :
    ExecStuck n Q := by
  intro γ f
  rw [← h γ f]
  exact runAll_congr hn (fun r hr => by rw [hP r hr])

theorem ExecStuck.stuck {α β : Type} {n : Nat} {P : Nat → Prog α β} (h : ExecStuck n P) : runAll n P = .stuck := by
  have := h β (fun _ b => Pure.pure b)
  have e : (fun r => P r >>= fun b => Pure.pure b) = P := by
    funext r
    induction P r with
    | done r => cases r <;> rfl
    | call c k ih => simp only [Prog.call_bind]; congr 1; funext a; exact ih a
  rwa [e] at this

/-- Some ranks in a barrier of the log, others in the first reduction of `get_latitude_tables`. -/
theorem chatter_stuck {n : Nat} (c : Cfg) (nan : Res Int) (verb : Nat → Int) {r s : Nat} (hr : r < n) (hs : s < n)
    (h1 : 5 < verb r) (h2 : verb s ≤ 5) (off1 n1 off2 n2 : Nat → Nat) (kern : Nat → List Nat → Res (List (List F) × List (List F)))
    (hw1 : ∀ r < n, off1 r + n1 r ≤ c.ntheta) (hw2 : ∀ r < n, off2 r + n2 r ≤ c.ntheta) :
    ExecStuck n (fun q => (chatter (verb q) n : Prog F Unit) >>= fun _ =>
      hemis nan c n q (kern q) (off1 q) (n1 q) (off2 q) (n2 q)) := by
  have hn : 1 ≤ n := by omega
  intro γ f
  let cc : Nat → Coll F := fun q => if 5 < verb q then .barrier else .borArr (needRow c.ntheta (off1 q) (n1 q))
  have hshape : ∀ q < n, ∃ k, (((chatter (verb q) n : Prog F Unit) >>= fun _ =>
      hemis nan c n q (kern q) (off1 q) (n1 q) (off2 q) (n2 q)) >>= f q) = Prog.call (cc q) k := by
    intro q hq
    unfold chatter
    by_cases hv : 5 < verb q
    · simp only [cc, if_pos hv]
      exact ⟨_, rfl⟩
    · simp only [cc, if_neg hv, Prog.lift_ok_bind]
      unfold hemis latTables
      rw [show markNeed c.ntheta (off1 q) (n1 q) = ok (needRow c.ntheta (off1 q) (n1 q)) from markNeed_eq (hw1 q hq),
        show markNeed c.ntheta (off2 q) (n2 q) = ok (needRow c.ntheta (off2 q) (n2 q)) from markNeed_eq (hw2 q hq)]
      exact ⟨_, rfl⟩
  have : Nonempty (Ans F → Prog F γ) := ⟨fun _ => .done (.ub "")⟩
  choose! kk hkk using hshape
  rw [runAll_congr hn hkk]
  refine runAll_stuck_of_exec hn cc kk ?_
  have m1 : Coll.barrier ∈ (List.range n).map cc := List.mem_map.mpr ⟨r, List.mem_range.mpr hr, by simp [cc, h1]⟩
  have m2 : ∃ x, Coll.borArr x ∈ (List.range n).map cc :=
    ⟨_, List.mem_map.mpr ⟨s, List.mem_range.mpr hs, if_neg (by omega)⟩⟩
  obtain ⟨x, m2⟩ := m2
  have hall : ∀ d ∈ (List.range n).map cc, d = .barrier ∨ ∃ y, d = .borArr y := by
    intro d hd
    obtain ⟨q, _, rfl⟩ := List.mem_map.mp hd
    by_cases hv : 5 < verb q
    · exact Or.inl (if_pos hv)
    · exact Or.inr ⟨_, if_neg hv⟩
  generalize (List.range n).map cc = cs at m1 m2 hall
  unfold exec
  cases cs with
  | nil => rfl
  | cons d cs =>
    rcases hall d (by simp) with rfl | ⟨y, rfl⟩
    · simp only [List.head?_cons]
      rw [if_neg]
      intro hx
      have := List.all_eq_true.mp hx _ m2
      simp [Coll.isBarrier] at this
    · simp only [List.head?_cons]
      rw [mapM_none Coll.getBor _ _ m1 rfl]; rfl

theorem todgen_stuck {e : Env F} {Ang : F → Prop} {verb0 : Nat → Int} (hL : Laws { e with verb := verb0 } Ang)
    {n : Nat} {r s : Nat} (hr : r < n) (hs : s < n) (h1 : 5 < e.verb r) (h2 : e.verb s ≤ 5)
    {N : Nat} (hT : TagLaw F N) (Y : Nat → List (Row F)) (hN : ∀ r < n, (Y r).length ≤ N)
    (hA : ∀ r < n, ∀ y ∈ Y r, Ang y.theta)
    (hsr : ∀ r < n, (Y r).Pairwise (fun p q => Arith.lt q.theta p.theta = false))
    (hv : ∀ r < n, ∀ y ∈ Y r, ∃ v, sampleSpec e y.phi y.theta y.psi = ok v)
    (k : Nat → Nat) (hk : ∀ r < n, k r = ((Y r).filter (fun y => Arith.lt y.theta Arith.halfpi)).length) :
    ExecStuck n (fun r => todgen e n r (k r) ((Y r).length - k r) (Y r)) := by
  have hn : 1 ≤ n := by omega
  have key := todgen_parts hL hT Y hN hA hsr hv k hk
  choose No So su1 su2 out1 out2 hkey using key
  unfold todgen
  refine ExecStuck.right hn (Exec.local hn (v := No) (fun r hr => (hkey r hr).1)) ?_
  refine ExecStuck.right hn (Exec.local hn (v := So) (fun r hr => (hkey r hr).2.1)) ?_
  refine ExecStuck.right hn (barrier_exec hn) ?_
  refine ExecStuck.left ?_
  unfold interpolTOD
  refine ExecStuck.right hn (Exec.local hn (v := su1) (fun r hr => (hkey r hr).2.2.1.run)) ?_
  refine ExecStuck.right hn (Exec.local hn (v := su2) (fun r hr => (hkey r hr).2.2.2.1.run)) ?_
  have hst := chatter_stuck (F := F) e.cfg e.nan e.verb hr hs h1 h2 (fun r => (su1 r).off.toNat)
      (fun r => (su1 r).n.toNat) (fun r => (su2 r).off.toNat) (fun r => (su2 r).n.toNat) e.kern
      (by intro r hr; have h := (hkey r hr).2.2.1; have a := h.off0; have b := h.n0; have c : _ ≤ (e.cfg.ntheta : Int) := h.win; omega)
      (by intro r hr; have h := (hkey r hr).2.2.2.1; have a := h.off0; have b := h.n0; have c : _ ≤ (e.cfg.ntheta : Int) := h.win; omega)
  have hst2 := ExecStuck.congr hn (fun r hr => by
      have h1 := (hkey r hr).2.2.1
      have h2 := (hkey r hr).2.2.2.1
      rw [Int.toNat_of_nonneg h1.off0, Int.toNat_of_nonneg h1.n0, Int.toNat_of_nonneg h2.off0, Int.toNat_of_nonneg h2.n0]) hst
  refine ExecStuck.congr hn (fun r hr => ?_) (ExecStuck.left (Q := fun r t =>
    Prog.lift (interpolate e.cfg e.sched (No r) (su1 r) t.1) >>= fun v1 =>
    Prog.lift (interpolate e.cfg e.sched (So r) (su2 r) t.2) >>= fun v2 => Prog.lift (ok (v1, v2))) hst2)
  simp only [Prog.bind_assoc]

theorem middle_stuck {e : Env F} {Ang : F → Prop} {verb0 : Nat → Int} (hL : Laws { e with verb := verb0 } Ang)
    {n : Nat} {r s : Nat} (hr : r < n) (hs : s < n) (h1 : 5 < e.verb r) (h2 : e.verb s ≤ 5)
    {N : Nat} (hT : TagLaw F N) (recv : Nat → List (Row F)) (hN : ∀ r < n, (recv r).length ≤ N)
    (hA : ∀ r < n, ∀ y ∈ recv r, Ang y.theta)
    (hv : ∀ r < n, ∀ y ∈ recv r, ∃ v, sampleSpec e y.phi y.theta y.psi = ok v) :
    ExecStuck n (fun r => middle e n r (recv r)) := by
  have hn : 1 ≤ n := by omega
  obtain ⟨tag, htag⟩ := tag_exists (F := F) hT
  have key := middle_parts hL recv hA
  choose Y hY using key
  have hpt : ∀ r < n, ∀ y ∈ Y r, ∃ i, ∃ (h : i < (recv r).length), y.theta = (recv r)[i].theta ∧ y.phi = (recv r)[i].phi ∧
      y.psi = (recv r)[i].psi ∧ tag y = i ∧ readTag y = ok (i : Int) := by
    intro r hr y hy
    have := (hY r hr).2.1.mem_iff.mp hy
    obtain ⟨i, hi, rfl⟩ := List.getElem_of_mem this
    have hi' : i < (recv r).length := by simpa using hi
    refine ⟨i, hi', by simp [tagSig], by simp [tagSig], by simp [tagSig], ?_⟩
    exact htag _ i (by have := hN r hr; omega) (tagSig_get _ i hi)
  have hlen : ∀ r < n, (Y r).length = (recv r).length := by
    intro r hr; rw [(hY r hr).2.1.length_eq]; simp
  have hth : ∀ r < n, ((Y r).map Row.theta).Perm ((recv r).map Row.theta) := by
    intro r hr
    have h1 := ((hY r hr).2.1.map Row.theta)
    rwa [tagSig_map Row.theta (fun _ _ => rfl)] at h1
  unfold middle
  simp only
  refine ExecStuck.right hn (Exec.local hn (v := Y) (fun r hr => (hY r hr).1)) ?_
  refine ExecStuck.right hn (Exec.local hn (v := fun r => (Y r).map (fun y => (tag y : Int))) ?_) ?_
  · intro r hr
    apply mapM_ok
    intro y hy
    obtain ⟨i, _, _, _, _, h1, h2⟩ := hpt r hr y hy
    rw [h2, h1]
  have htg := todgen_stuck hL hr hs h1 h2 hT Y (fun r hr => by rw [hlen r hr]; exact hN r hr)
    (by intro r hr y hy; obtain ⟨i, hi, h1, _⟩ := hpt r hr y hy; rw [h1]; exact hA r hr _ (List.getElem_mem hi))
    (fun r hr => (hY r hr).2.2)
    (by
      intro r hr y hy
      obtain ⟨i, hi, h1, h2, h3, _⟩ := hpt r hr y hy
      rw [h1, h2, h3]
      exact hv r hr _ (List.getElem_mem hi))
    (fun r => ((recv r).filter (fun y => Arith.lt y.theta Arith.halfpi)).length)
    (by
      intro r hr
      have h2 := ((hth r hr).filter (fun t => Arith.lt t Arith.halfpi)).length_eq
      rw [List.filter_map, List.filter_map, List.length_map, List.length_map] at h2
      exact h2.symm)
  exact ExecStuck.left (ExecStuck.congr hn (fun r hr => by rw [hlen r hr]) htg)

/-- The first exchange. -/
theorem recv_exec {n : Nat} (hn : 1 ≤ n) {bounds : List F} {R : Nat → List (Row F)}
    (hpart : (∀ r < n, active n bounds R r) ∨ ∀ r < n, R r = []) :
    Exec n (fun r => sendRecv n (R r).length (segSize n (outSegOf n bounds R r)) (packedOf n bounds R r) (inSegOf n bounds R r)
      (outSegOf n bounds R r) (segSize n (outSegOf n bounds R r))) (recvOf n bounds R) := by
  have hrempty : (∀ r < n, R r = []) → ∀ r < n, recvOf n bounds R r = [] := by
    intro h r hr
    unfold recvOf
    rw [List.flatten_eq_nil_iff]
    intro l hl
    obtain ⟨s, hs, rfl⟩ := List.mem_map.mp hl
    apply List.length_eq_zero_iff.mp
    rw [toRank_length, h s (List.mem_range.mp hs)]; rfl
  simp only [segSize_outSeg hn]
  rcases hpart with hact | hemp
  · refine Exec.congr hn (fun r hr => ?_) (fun r hr => ?_) (sendRecv_exec (F := F) hn
      (fun s => (List.range n).map (toRank n bounds R s)) (inSegOf n bounds R) (outSegOf n bounds R)
      (fun r => (R r).length) (fun r => 5 * (recvOf n bounds R r).length)
      (fun r => 5 * (recvOf n bounds R r).length)
      (fun r hr => by have := active_iff.mp (hact r hr); omega)
      (fun s _ => by simp)
      (fun s _ => by simp [inSegOf, Function.comp_def])
      (fun r hr => by simp only [outSegOf, getD_map_range hr])
      (fun r hr => by simp only [recvOf, getD_map_range hr]))
    · rfl
    · simp only [recvOf, getD_map_range hr]
  · refine Exec.congr hn (fun _ _ => rfl) (fun r hr => (hrempty hemp r hr).symm)
      (sendRecv_idle hn (packedOf n bounds R) (inSegOf n bounds R) (outSegOf n bounds R)
        (fun r => (R r).length) (fun r => 5 * (recvOf n bounds R r).length)
        (fun r => 5 * (recvOf n bounds R r).length) (fun r hr => by
          simp only [hemp r hr, hrempty hemp r hr]; simp))

/-- **C66** (finding) A job that returns with agreeing verbosities blocks for ever if a rank is given a verbosity above 5 and another
one a verbosity of at most 5. -/
theorem C66_mixed_debug_hangs {e : Env F} {Ang : F → Prop} {n : Nat} {R : Nat → List (Row F)} (hV : Valid e Ang n R)
    {v : Nat → List (Row F)} (h : Returns n (job e n R) v) (verb' : Nat → Int) {r s : Nat} (hr : r < n) (hs : s < n)
    (h1 : 5 < verb' r) (h2 : verb' s ≤ 5) : runAll n (job { e with verb := verb' } n R) = .stuck := by
  have hn := hV.ranks
  have hT : TagLaw F (total R n) := by rw [← samples_length]; exact hV.tags
  obtain ⟨hrange, H, bounds, hH, hB, hpart⟩ := job_returns_inv _ hn R hT h
  have hb : bounds.length = n := boundTable_length hn hB
  obtain ⟨tag, htag⟩ := tagOf_exists (F := F) hT
  have hprep := prepare_exec { e with verb := verb' } hn R htag hrange H bounds hH hB
  refine ExecStuck.stuck (P := job { e with verb := verb' } n R) ?_
  unfold job convolve
  refine ExecStuck.right hn hprep ?_
  unfold exchange
  refine ExecStuck.right hn (v := recvOf n bounds R) ?_ ?_
  · exact recv_exec hn hpart
  refine ExecStuck.left (middle_stuck (e := { e with verb := verb' }) (verb0 := e.verb) hV.laws hr hs h1 h2 hT (recvOf n bounds R) (recvOf_le hn hb R) ?_ ?_)
  · intro r hr y hy
    obtain ⟨s, hs, x, hx, h1, _⟩ := recvOf_mem y hy
    rw [h1]; exact hV.ang s hs x hx
  · intro r hr y hy
    obtain ⟨s, hs, x, hx, h1, h2, h3⟩ := recvOf_mem y hy
    rw [h1, h2, h3]; exact hV.defined s hs x hx

/-- **C66** The verbosity is only a matter of the log: if all ranks agree on the classes (silent, verbose, more than 5), the job
returns for one choice of the classes iff it returns for every other one, and the rows are the same. -/
theorem C66_same_result_partial {e : Env F} {Ang : F → Prop} {n : Nat} {R : Nat → List (Row F)} (hV : Valid e Ang n R)
    (verb' : Nat → Int) (h' : SameVerb verb') (v : Nat → List (Row F)) :
    Returns n (job e n R) v ↔ Returns n (job { e with verb := verb' } n R) v := by
  have key : ∀ (e1 : Env F) (verb2 : Nat → Int), Valid e1 Ang n R → SameVerb verb2 → Returns n (job e1 n R) v →
      Returns n (job { e1 with verb := verb2 } n R) v := by
    intro e1 verb2 h1 h2 hret
    have hn := h1.ranks
    have hT : TagLaw F (total R n) := by rw [← samples_length]; exact h1.tags
    obtain ⟨hrange, H, bounds, hH, hB, hpart⟩ := job_returns_inv _ hn R hT hret
    have hx := (convolve_exec (e := { e1 with verb := verb2 }) { h1.laws with verb := h2 } hn R hT h1.ang hrange h1.defined H bounds hH hB hpart)
    have hr := returns_eq h1 hret
    refine (Exec.congr hn (fun _ _ => rfl) (fun r hr' => ?_) hx).finish hn
    rw [hr r hr']
    rfl
  constructor
  · exact key e verb' hV h'
  · intro h
    exact key { e with verb := verb' } e.verb ⟨hV.ranks, { hV.laws with verb := h' }, hV.tags, hV.ang, hV.defined⟩ hV.laws.verb h

/-- C66 in full: the verbosities of the ranks have no influence on whether `convolve` returns and on what it returns. -/
def C66_Full : Prop := ∀ (e : Env ℝ) (n : ℕ) (R : ℕ → List (Row ℝ)) (v : ℕ → List (Row ℝ)) (verb' : ℕ → ℤ), EnvOK e → 1 ≤ n →
  Returns n (job e n R) v → Returns n (job { e with verb := verb' } n R) v

/-- The example job of three ranks with one verbose rank hangs, and returns if all are verbose (its verbosities are 6, 7, 8). -/
example : (∃ v, Returns 3 (job demoEnv 3 demoRows) v) ∧
    runAll 3 (job { demoEnv with verb := fun r => if r = 0 then 1 else 0 } 3 demoRows) = .stuck ∧
    runAll 3 (job { demoEnv with verb := fun r => if r = 0 then 6 else 5 } 3 demoRows) = .stuck := by
  obtain ⟨v, hv, _⟩ := C01_convolve_real demoEnv_ok (by simp [demoEnv, Cfg.nphi]) (n := 3) (by norm_num)
    (R := demoRows) demo_balanced (fun r _ => by simp [demoRows])
  have hV : Valid demoEnv (fun _ => True) 3 demoRows := valid_real demoEnv_ok (by simp [demoEnv, Cfg.nphi]) (by norm_num) demoRows
  refine ⟨⟨v, hv⟩, ?_, ?_⟩
  · have h2 := (C66_same_result_partial hV (fun _ => 0) (SameVerb.const 0) v).mp hv
    exact C66_mixed_report_hangs _ demoRows h2 (fun r => if r = 0 then 1 else 0) (fun r _ => by
      show (5 < (0 : Int) ↔ _); split <;> simp) (r := 0) (s := 1) (by norm_num) (by norm_num) (by norm_num) (by norm_num)
  · exact C66_mixed_debug_hangs hV hv _ (r := 0) (s := 1) (by norm_num) (by norm_num) (by norm_num) (by norm_num)

theorem C66_full_refuted : ¬ C66_Full := by
  intro h
  obtain ⟨v, hv, _⟩ := C01_convolve_real demoEnv_ok (by simp [demoEnv, Cfg.nphi]) (n := 3) (by norm_num)
    (R := demoRows) demo_balanced (fun r _ => by simp [demoRows])
  have h2 := h demoEnv 3 demoRows v (fun r => if r = 0 then 1 else 0) demoEnv_ok (by norm_num) hv
  exact C66_mixed_report_never_returns { demoEnv with verb := fun r => if r = 0 then 1 else 0 } demoRows (r := 0) (s := 1)
    (by norm_num) (by norm_num) (by norm_num) (by norm_num) v h2

end Verif.Tod
