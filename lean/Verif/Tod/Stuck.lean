import Verif.Tod.Main

/-!
# When `convolve` does not return: inversion and deadlock lemmas
-/

namespace Verif.Tod
open Verif Res Spmd

variable {F : Type} [Arith F]

/-- The job: `n` ranks call `convolve` on their rows `R r`. -/
def job (e : Env F) (n : Nat) (R : Nat → List (Row F)) : Nat → Prog F (List (Row F)) :=
  fun r => convolve e n r (R r)

theorem checkTheta_iff (rows : List (Row F)) : checkTheta rows = ok () ↔
    ∀ r ∈ rows, Arith.lt r.theta (Arith.ofInt 0) = false ∧ Arith.lt Arith.pi r.theta = false := by
  refine ⟨?_, checkTheta_ok⟩
  intro h
  unfold checkTheta at h
  induction rows with
  | nil => simp
  | cons r rows ih =>
    rw [foldRes_cons] at h
    by_cases hc : (Arith.lt r.theta (Arith.ofInt 0) || Arith.lt Arith.pi r.theta) = true
    · rw [if_pos hc] at h; cases h
    · rw [if_neg hc] at h
      intro x hx
      rcases List.mem_cons.mp hx with rfl | hx
      · simpa using hc
      · exact ih h x hx

theorem checkTheta_throw {rows : List (Row F)}
    (h : ∃ r ∈ rows, Arith.lt r.theta (Arith.ofInt 0) = true ∨ Arith.lt Arith.pi r.theta = true) :
    checkTheta rows = throw "convolver::convolve: Illegal theta" := by
  unfold checkTheta
  induction rows with
  | nil => obtain ⟨r, hr, _⟩ := h; simp at hr
  | cons r rows ih =>
    rw [foldRes_cons]
    by_cases hc : (Arith.lt r.theta (Arith.ofInt 0) || Arith.lt Arith.pi r.theta) = true
    · rw [if_pos hc]; rfl
    · rw [if_neg hc]
      apply ih
      obtain ⟨x, hx, hx'⟩ := h
      rcases List.mem_cons.mp hx with rfl | hx
      · simp at hc; simp [hc] at hx'
      · exact ⟨x, hx, hx'⟩

theorem setTime_range {off : Int} {rows : List (Row F)} (P : F → Prop) :
    (∀ y ∈ setTime off rows, P y.theta) ↔ ∀ y ∈ rows, P y.theta := by
  have h := setTime_map Row.theta (fun _ _ => rfl) off rows
  have key : ∀ l : List (Row F), (∀ y ∈ l, P y.theta) ↔ ∀ t ∈ l.map Row.theta, P t := by
    intro l; simp
  rw [key, key, h]

/-- State of the job when the colatitudes are checked. -/
theorem job_check (e : Env F) {n : Nat} (hn : 1 ≤ n) (R : Nat → List (Row F)) :
    ∃ f : Nat → Unit → Prog F (List (Row F)),
      Steps n (job e n R) (fun r => (Prog.lift (checkTheta (setTime (before R r) (R r))) : Prog F Unit) >>= f r) ∧
      ∀ r, (∃ k x, f r () = .call (.sumInt x) k) ∧
        f r () = (distribute e.nbin n (setTime (before R r) (R r)) >>= fun bounds =>
          (do
            let inSeg ← Prog.lift (fillingBetaSeg n bounds (setTime (before R r) (R r)))
            barrier
            let outSeg ← all2all inSeg
            let packed ← Prog.lift (todRedistribution n bounds inSeg (tagSig (setTime (before R r) (R r))))
            let order ← Prog.lift (packed.mapM readTag)
            Prog.lift (ok (⟨inSeg, outSeg, packed, order⟩ : Shuffle F))) >>= fun sh =>
              exchange e n r (R r).length sh) := by
  refine ⟨fun r _ => (distribute e.nbin n (setTime (before R r) (R r)) >>= fun bounds =>
          (do
            let inSeg ← Prog.lift (fillingBetaSeg n bounds (setTime (before R r) (R r)))
            barrier
            let outSeg ← all2all inSeg
            let packed ← Prog.lift (todRedistribution n bounds inSeg (tagSig (setTime (before R r) (R r))))
            let order ← Prog.lift (packed.mapM readTag)
            Prog.lift (ok (⟨inSeg, outSeg, packed, order⟩ : Shuffle F))) >>= fun sh =>
              exchange e n r (R r).length sh), ?_, ?_⟩
  · unfold job convolve prepare
    refine (Exec.steps (barrier_exec hn) _ _).trans ?_
    refine (Exec.steps (scanSum_exec hn (fun r => ((R r).length : Int))) _ _).trans ?_
    refine .refl (fun r _ => ?_)
    simp only [scan_before]
    rw [Prog.bind_assoc]
    congr 1
    funext _
    rw [Prog.bind_assoc]
  · intro r
    refine ⟨⟨_, _, rfl⟩, rfl⟩

/-- C07 (negative) core: an illegal colatitude on one rank only blocks the job. -/
theorem job_stuck_of_illegal (e : Env F) {n : Nat} (R : Nat → List (Row F)) {r s : Nat} (hr : r < n) (hs : s < n)
    (hbad : ∃ y ∈ R r, Arith.lt y.theta (Arith.ofInt 0) = true ∨ Arith.lt Arith.pi y.theta = true)
    (hgood : ∀ y ∈ R s, Arith.lt y.theta (Arith.ofInt 0) = false ∧ Arith.lt Arith.pi y.theta = false) :
    Throws n (job e n R) r ∧ runAll n (job e n R) = .stuck := by
  have hn : 1 ≤ n := by omega
  obtain ⟨f, hsteps, hf⟩ := job_check e hn R
  have hb : checkTheta (setTime (before R r) (R r)) = throw "convolver::convolve: Illegal theta" := by
    apply checkTheta_throw
    by_contra hc
    push Not at hc
    have := (setTime_range (off := before R r) (rows := R r) (fun t => ¬ (Arith.lt t (Arith.ofInt 0) = true) ∧
      ¬ (Arith.lt Arith.pi t = true))).mp (fun y hy => by simpa using hc y hy)
    obtain ⟨y, hy, h⟩ := hbad
    have h2 := this y hy
    rcases h with h | h
    · exact h2.1 h
    · exact h2.2 h
  have hg : checkTheta (setTime (before R s) (R s)) = ok () := by
    apply checkTheta_ok
    exact (setTime_range (fun t => Arith.lt t (Arith.ofInt 0) = false ∧ Arith.lt Arith.pi t = false)).mpr hgood
  refine ⟨⟨_, hsteps, "convolver::convolve: Illegal theta", ?_⟩, ?_⟩
  · simp only [hb]; rfl
  · rw [hsteps.runAll_eq hn]
    apply runAll_stuck_of_mix _ s r hs hr
    · simp only [hg]
      obtain ⟨⟨k, x, hk⟩, _⟩ := hf s
      show (f s ()).getDone = none
      rw [hk]; rfl
    · simp only [hb]; rfl

/-- The collectives a rank without data waits in: the first of `get_latitude_tables` or a barrier of the log. -/
def IdleColl (c : Coll F) : Prop := c = .barrier ∨ ∃ x, c = .borArr x

theorem middle_idle (e : Env F) (n r : Nat) : ∃ k c k', (middle e n r [] : Prog F (List (Row F))) = .call .barrier k ∧
    k .unit = .call c k' ∧ IdleColl c := by
  have key : ∃ k, (middle e n r [] : Prog F (List (Row F))) = .call .barrier k ∧
      k .unit = ((interpolTOD e n r [] [] >>= fun v => Prog.lift (scatterSig (tagSig (tagSig [])) ([].zip v.1)) >>= fun rows =>
        Prog.lift (scatterSig rows ([].zip v.2))) >>= fun out => Prog.lift (if ([] : List (Row F)).length ≠ 0 then
          scatter out (([] : List Int).reverse.zip out) else ok out)) := ⟨_, rfl, rfl⟩
  obtain ⟨k, h1, h2⟩ := key
  rw [h1]
  by_cases h : 5 < e.verb r
  · refine ⟨k, .barrier, ?_, rfl, ?_, Or.inl rfl⟩
    rotate_left
    · rw [h2]
      unfold interpolTOD chatter
      rw [if_pos h]
      rfl
  · refine ⟨k, .borArr ?_, ?_, rfl, ?_, Or.inr ⟨_, rfl⟩⟩
    rotate_left
    rotate_left
    · rw [h2]
      unfold interpolTOD chatter
      rw [if_neg h]
      rfl

theorem rd_nothrow {β : Type} (xs : List β) (i : Int) (m : String) : rd xs i ≠ throw m := by
  unfold rd; split <;> simp

theorem mapM_nothrow {β γ : Type} (f : β → Res γ) (hf : ∀ x m, f x ≠ throw m) (l : List β) (m : String) :
    l.mapM f ≠ throw m := by
  induction l with
  | nil => simp
  | cons x l ih =>
    rw [List.mapM_cons]
    cases hx : f x with
    | throw m' => exact absurd hx (hf x m')
    | ub w => simp
    | ok y =>
      cases hl : l.mapM f with
      | throw m' =>
        intro h
        simp only [ok_bind, throw_bind] at h
        injection h with h
        exact ih (h ▸ hl)
      | ub w => simp
      | ok z => simp

theorem a2avRows_shape (cores : Nat) (rows : List (Row F)) (sc sd rc rdp : List Nat) (outsize : Nat) :
    (∃ w, a2avRows cores rows sc sd rc rdp outsize = .done (.ub w)) ∨
    ∃ a b k, a2avRows cores rows sc sd rc rdp outsize = .call (.alltoallv a b) k := by
  have h1 : ∀ m, (List.range cores).mapM (fun (c : Nat) => do
    let off ← rd sd (c : Int)
    let cnt ← rd sc (c : Int)
    sliceChk (flat rows) off cnt) ≠ throw m := by
    intro m
    apply mapM_nothrow
    intro c m'
    cases ho : rd sd (c : Int) with
    | throw m => exact absurd ho (rd_nothrow _ _ _)
    | ub w => simp
    | ok off =>
      cases hc : rd sc (c : Int) with
      | throw m => exact absurd hc (rd_nothrow _ _ _)
      | ub w => simp
      | ok cnt => simp only [ok_bind]; unfold sliceChk; split <;> simp
  have h2 : ∀ m, (List.range cores).mapM (fun (c : Nat) => rd rc (c : Int)) ≠ throw m := fun m =>
    mapM_nothrow _ (fun c m' => rd_nothrow _ _ _) _ _
  unfold a2avRows a2av
  revert h1 h2
  generalize (List.range cores).mapM (fun (c : Nat) => do
    let off ← rd sd (c : Int)
    let cnt ← rd sc (c : Int)
    sliceChk (flat rows) off cnt) = x
  generalize (List.range cores).mapM (fun (c : Nat) => rd rc (c : Int)) = y
  intro h1 h2
  cases x with
  | throw m => exact absurd rfl (h1 m)
  | ub m => left; exact ⟨m, rfl⟩
  | ok x =>
    cases y with
    | throw m => exact absurd rfl (h2 m)
    | ub m => left; exact ⟨m, rfl⟩
    | ok y => right; exact ⟨_, _, _, rfl⟩

theorem exec_mix {cs : List (Coll F)} (h1 : ∃ a b, Coll.alltoallv a b ∈ cs) (h2 : ∃ x ∈ cs, IdleColl x)
    (h3 : ∀ c ∈ cs, (∃ a b, c = .alltoallv a b) ∨ IdleColl c) : exec cs = none := by
  obtain ⟨a, b, h1⟩ := h1
  obtain ⟨x, h2, hx⟩ := h2
  unfold exec
  cases cs with
  | nil => rfl
  | cons c cs =>
    rcases h3 c (by simp) with ⟨a', b', rfl⟩ | rfl | ⟨x', rfl⟩
    · simp only [List.head?_cons]
      rw [mapM_none Coll.getA2av _ _ h2 (by rcases hx with rfl | ⟨y, rfl⟩ <;> rfl)]; rfl
    · simp only [List.head?_cons]
      rw [if_neg]
      intro hall
      have := List.all_eq_true.mp hall _ h1
      simp [Coll.isBarrier] at this
    · simp only [List.head?_cons]
      rw [mapM_none Coll.getBor _ _ h1 rfl]; rfl

/-- State of the job after the first barrier of the exchange. -/
theorem exchange_shape (e : Env F) {n : Nat} (hn : 1 ≤ n) {bounds : List F} (R : Nat → List (Row F))
    (tag : Row F → Nat) :
    ∃ K : Nat → Prog F (List (Row F)), Steps n (fun r => exchange e n r (R r).length ⟨inSegOf n bounds R r,
      outSegOf n bounds R r, packedOf n bounds R r, (packedOf n bounds R r).map (fun y => (tag y : Int))⟩) K ∧
      (∀ r < n, active n bounds R r → ∃ a b k', K r = .call (.alltoallv a b) k') ∧
      (∀ r, ¬ active n bounds R r → ∃ c k', K r = .call c k' ∧ IdleColl c) := by
  classical
  have hnoub : ∀ r < n, ∀ w, a2avRows n (packedOf n bounds R r) (inSegOf n bounds R r)
          (segOffset n (inSegOf n bounds R r)) (outSegOf n bounds R r) (segOffset n (outSegOf n bounds R r))
          (segSize n (outSegOf n bounds R r)) ≠ .done (.ub w) := by
    intro r hr w hw
    have hx := a2avRows_exec (F := F) hn (fun s => (List.range n).map (toRank n bounds R s)) (inSegOf n bounds R) (outSegOf n bounds R)
      (fun r => 5 * (recvOf n bounds R r).length)
      (fun s _ => by simp)
      (fun s _ => by simp [inSegOf, Function.comp_def])
      (fun r hr => by simp only [outSegOf, getD_map_range hr])
      (fun r hr => by simp only [recvOf, getD_map_range hr])
    refine HasUB.not_returns hr ⟨_, .refl (fun _ _ => rfl), w, ?_⟩ _ (hx.finish hn)
    simp only [← packedOf_eq]
    rw [← hw, segSize_outSeg hn]
  -- shape of an active rank
  have hA : ∀ r, active n bounds R r → ∃ k, exchange e n r (R r).length ⟨inSegOf n bounds R r, outSegOf n bounds R r,
      packedOf n bounds R r, (packedOf n bounds R r).map (fun y => (tag y : Int))⟩ = .call .barrier k ∧
      (r < n → ∃ a b k', k .unit = .call (.alltoallv a b) k') := by
    intro r hact
    have hX : sendRecv n (R r).length (segSize n (outSegOf n bounds R r)) (packedOf n bounds R r)
        (inSegOf n bounds R r) (outSegOf n bounds R r) (segSize n (outSegOf n bounds R r)) =
        (barrier >>= fun _ => a2avRows n (packedOf n bounds R r) (inSegOf n bounds R r)
          (segOffset n (inSegOf n bounds R r)) (outSegOf n bounds R r) (segOffset n (outSegOf n bounds R r))
          (segSize n (outSegOf n bounds R r))) := by
      unfold sendRecv
      rw [if_pos]
      have h := active_iff.mp hact
      have h2 := segSize_outSeg hn bounds R r
      simp only [ne_eq, Bool.or_eq_true, decide_eq_true_eq]
      omega
    unfold exchange
    simp only []
    rw [hX]
    refine ⟨_, rfl, fun hr => ?_⟩
    rcases a2avRows_shape n (packedOf n bounds R r) (inSegOf n bounds R r) (segOffset n (inSegOf n bounds R r))
      (outSegOf n bounds R r) (segOffset n (outSegOf n bounds R r)) (segSize n (outSegOf n bounds R r)) with
      ⟨w, hx⟩ | ⟨a, b, k, hk⟩
    · exact absurd hx (hnoub r hr w)
    · simp only [Prog.pure_def, Prog.ok_bind, asUnit, Prog.lift]
      rw [hk]
      exact ⟨a, b, _, rfl⟩
  have hI : ∀ r, ¬ active n bounds R r → ∃ k, exchange e n r (R r).length ⟨inSegOf n bounds R r, outSegOf n bounds R r,
      packedOf n bounds R r, (packedOf n bounds R r).map (fun y => (tag y : Int))⟩ = .call .barrier k ∧
      ∃ c k', k .unit = .call c k' ∧ IdleColl c := by
    intro r hact
    have hX : sendRecv n (R r).length (segSize n (outSegOf n bounds R r)) (packedOf n bounds R r)
        (inSegOf n bounds R r) (outSegOf n bounds R r) (segSize n (outSegOf n bounds R r)) =
        Prog.lift (ok []) := by
      unfold sendRecv
      rw [if_neg]
      rw [active_iff] at hact
      have h2 := segSize_outSeg hn bounds R r
      simp only [ne_eq, Bool.or_eq_true, decide_eq_true_eq]
      omega
    unfold exchange
    simp only []
    rw [hX]
    obtain ⟨k, x, k', h1, h2, hx⟩ := middle_idle e n r
    simp only [Prog.lift_ok_bind]
    rw [h1]
    refine ⟨_, rfl, x, ?_⟩
    rw [h2]
    exact ⟨_, rfl, hx⟩
  have hall : ∀ r, ∃ k, exchange e n r (R r).length ⟨inSegOf n bounds R r, outSegOf n bounds R r,
      packedOf n bounds R r, (packedOf n bounds R r).map (fun y => (tag y : Int))⟩ = .call .barrier k ∧
      (r < n → active n bounds R r → ∃ a b k', k .unit = .call (.alltoallv a b) k') ∧
      (¬ active n bounds R r → ∃ c k', k .unit = .call c k' ∧ IdleColl c) := by
    intro r
    by_cases h : active n bounds R r
    · obtain ⟨k, h1, h2⟩ := hA r h; exact ⟨k, h1, fun hr _ => h2 hr, fun h' => absurd h h'⟩
    · obtain ⟨k, h1, h2⟩ := hI r h; exact ⟨k, h1, fun _ h' => absurd h' h, fun _ => h2⟩
  choose k hk1 hk2 hk3 using hall
  exact ⟨fun r => k r .unit, .step _ k _ (fun r _ => hk1 r) (exec_barrier hn) (.refl (fun _ _ => rfl)), hk2, hk3⟩

/-- Nothing can happen any more in this state of a job: a rank has ended or the collectives differ. -/
def Blocked {β : Type} (n : Nat) (P : Nat → Prog F β) : Prop :=
  ∀ (c : Nat → Coll F) (k : Nat → Ans F → Prog F β), (∀ r < n, P r = .call (c r) (k r)) →
    exec ((List.range n).map c) = none

theorem Blocked.steps {β : Type} {n : Nat} {P Q : Nat → Prog F β} (h : Blocked n P) (hs : Steps n P Q) :
    ∀ r < n, Q r = P r := by
  cases hs with
  | refl h => exact fun r hr => (h r hr).symm
  | step c k a hP hc _ => rw [h c k hP] at hc; cases hc

/-- C06 (negative) core: if some rank takes part in the exchange and another does not, the job blocks. -/
theorem exchange_stuck (e : Env F) {n : Nat} {bounds : List F} (R : Nat → List (Row F))
    (tag : Row F → Nat) {r s : Nat} (hr : r < n) (hs : s < n)
    (hact : active n bounds R r) (hidle : ¬ active n bounds R s) :
    runAll n (fun r => exchange e n r (R r).length ⟨inSegOf n bounds R r, outSegOf n bounds R r,
      packedOf n bounds R r, (packedOf n bounds R r).map (fun y => (tag y : Int))⟩) = .stuck ∧
    ∃ K : Nat → Prog F (List (Row F)), Steps n (fun r => exchange e n r (R r).length ⟨inSegOf n bounds R r,
      outSegOf n bounds R r, packedOf n bounds R r, (packedOf n bounds R r).map (fun y => (tag y : Int))⟩) K ∧
      Blocked n K ∧ ∀ q < n, ∀ x, K q ≠ .done x := by
  have hn : 1 ≤ n := by omega
  classical
  obtain ⟨k, hsteps, hk2, hk3⟩ := exchange_shape e hn (bounds := bounds) R tag
  have hnt : ∀ q < n, ∀ x, k q ≠ .done x := by
    intro q hq x hx
    by_cases h : active n bounds R q
    · obtain ⟨a, b, k', h'⟩ := hk2 q hq h
      rw [h'] at hx; cases hx
    · obtain ⟨y, k', h', -⟩ := hk3 q h
      rw [h'] at hx; cases hx
  rw [hsteps.runAll_eq hn]
  · have hd := hnt
    have hc : ∀ q < n, ∃ c k', k q = .call c k' ∧ ((active n bounds R q ∧ ∃ a b, c = .alltoallv a b) ∨
        (¬ active n bounds R q ∧ IdleColl c)) := by
      intro q hq
      by_cases h : active n bounds R q
      · obtain ⟨a, b, k', h'⟩ := hk2 q hq h
        exact ⟨_, _, h', Or.inl ⟨h, a, b, rfl⟩⟩
      · obtain ⟨x, k', h', hx⟩ := hk3 q h
        exact ⟨_, _, h', Or.inr ⟨h, hx⟩⟩
    have : Nonempty (Coll F) := ⟨.barrier⟩
    have : Nonempty (Ans F → Prog F (List (Row F))) := ⟨fun _ => .done (.ub "")⟩
    choose! c k' hck hcs using hc
    have hex : exec ((List.range n).map c) = none := by
     apply exec_mix
     · rcases hcs r hr with ⟨_, a, b, h⟩ | ⟨h, _⟩
       · exact ⟨a, b, List.mem_map.mpr ⟨r, List.mem_range.mpr hr, h⟩⟩
       · exact absurd hact h
     · rcases hcs s hs with ⟨h, _⟩ | ⟨_, h⟩
       · exact absurd h hidle
       · exact ⟨c s, List.mem_map.mpr ⟨s, List.mem_range.mpr hs, rfl⟩, h⟩
     · intro d hd'
       obtain ⟨q, hq, rfl⟩ := List.mem_map.mp hd'
       rcases hcs q (List.mem_range.mp hq) with ⟨_, a, b, h⟩ | ⟨_, h⟩
       · exact Or.inl ⟨a, b, h⟩
       · exact Or.inr h
    rw [runAll_congr hn hck]
    refine ⟨runAll_stuck_of_exec hn c k' hex, k, hsteps, ?_, hnt⟩
    intro c2 k2 h2
    rw [← hex]
    congr 1
    apply List.map_congr_left
    intro q hq
    have h3 := h2 q (List.mem_range.mp hq)
    rw [hck q (List.mem_range.mp hq)] at h3
    injection h3 with h3
    exact h3.symm

/-- What a normal return tells about the input. -/
theorem job_returns_inv (e : Env F) {n : Nat} (hn : 1 ≤ n) (R : Nat → List (Row F)) (hT : TagLaw F (total R n))
    {v : Nat → List (Row F)} (h : Returns n (job e n R) v) :
    (∀ r < n, ∀ y ∈ R r, Arith.lt y.theta (Arith.ofInt 0) = false ∧ Arith.lt Arith.pi y.theta = false) ∧
    ∃ (H : Nat → List Int) (bounds : List F), (∀ r < n, localHits e.nbin (R r) = ok (H r)) ∧
      boundTable e.nbin n (sumCols ((List.range n).map H) e.nbin) (total R n) = ok bounds ∧
      ((∀ r < n, active n bounds R r) ∨ ∀ r < n, R r = []) := by
  obtain ⟨f, hsteps, hf⟩ := job_check e hn R
  have h0 := h
  unfold Returns at h
  rw [hsteps.runAll_eq hn] at h
  obtain ⟨y, hy⟩ := lift_ok_of_returns hn h
  have hrange : ∀ r < n, ∀ y ∈ R r, Arith.lt y.theta (Arith.ofInt 0) = false ∧ Arith.lt Arith.pi y.theta = false := by
    intro r hr
    have := (checkTheta_iff _).mp (hy r hr)
    exact (setTime_range (fun t => Arith.lt t (Arith.ofInt 0) = false ∧ Arith.lt Arith.pi t = false)).mp this
  refine ⟨hrange, ?_⟩
  rw [(Exec.local hn hy _ f |>.runAll_eq hn)] at h
  have hu : ∀ r, f r (y r) = f r () := fun r => rfl
  simp only [hu, (hf _).2] at h
  unfold distribute at h
  simp only [Prog.bind_assoc] at h
  rw [((allSum_exec hn (fun r => ((setTime (before R r) (R r)).length : Int))) _ _ |>.runAll_eq hn)] at h
  obtain ⟨H, hH⟩ := lift_ok_of_returns hn h
  rw [(Exec.local hn hH _ _ |>.runAll_eq hn)] at h
  have hH' : ∀ r < n, localHits e.nbin (R r) = ok (H r) := by
    intro r hr
    rw [← hH r hr]
    exact (localHits_congr e.nbin _ _ (setTime_map Row.theta (fun _ _ => rfl) _ _)).symm
  rw [((allSumArr_exec hn H e.nbin (fun r hr => localHits_length (hH' r hr))) _ _ |>.runAll_eq hn)] at h
  obtain ⟨bs, hbs⟩ := lift_ok_of_returns hn h
  have hB := hbs 0 (by omega)
  rw [sum_total] at hB
  refine ⟨H, bs 0, hH', hB, ?_⟩
  by_contra hc
  rw [not_or] at hc
  obtain ⟨hc1, hc2⟩ := hc
  push Not at hc1 hc2
  obtain ⟨s, hs, hs'⟩ := hc1
  obtain ⟨r, hr, hr'⟩ := hc2
  obtain ⟨tag, htag⟩ := tagOf_exists (F := F) hT
  have hp := prepare_exec e hn R htag hrange H (bs 0) hH' hB
  unfold Returns job convolve at h0
  rw [(hp _ _ |>.runAll_eq hn), (exchange_stuck e R tag hr hs (Or.inl hr') hs').1] at h0
  cases h0

end Verif.Tod
