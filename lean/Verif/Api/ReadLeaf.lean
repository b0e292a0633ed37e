import Verif.Api.HandleProps
import Verif.Api.ReadProps
import Verif.Tod.Verb
import Verif.Api.ReadProof

/-!
# C77: what the calls that read files leave behind

The executions of `Api/Handles.lean` take the outcome of `beam::read` and `sky::read` from outside, limited by `Possible`.
Here the limits are derived from the reading code itself (`Api/Read.lean`): for all files, all ranks and all other ranks'
behaviour, whatever such a call leaves behind on a rank where it ends, is possible.
-/

namespace Verif.Spmd
open Verif Res Prog
variable {α : Type}

/-- What every MPI implementation guarantees about a single answer: a broadcast fills the buffer and no more. -/
def Admissible : Coll α → Ans α → Prop
  | .bcast xs, .data [ys] => ys.length = xs.length
  | _, _ => True

/-- Wherever the program ends with a value, the value satisfies `Q`. -/
inductive Leaf {β : Type u} (Q : β → Prop) : Prog α β → Prop
  | done {r : Res β} (h : ∀ b, r = ok b → Q b) : Leaf Q (.done r)
  | call {c : Coll α} {k : Ans α → Prog α β} (h : ∀ a, Admissible c a → Leaf Q (k a)) : Leaf Q (.call c k)

theorem Leaf.bind {β γ : Type} {R : β → Prop} {Q : γ → Prop} {p : Prog α β} {f : β → Prog α γ} (hp : Leaf R p)
    (hf : ∀ b, R b → Leaf Q (f b)) : Leaf Q (p >>= f) := by
  induction hp with
  | @done r h =>
    cases r with
    | ok b => exact hf b (h b rfl)
    | throw m => exact .done (fun b hb => by cases hb)
    | ub w => exact .done (fun b hb => by cases hb)
  | @call c k h ih => exact .call (fun a ha => ih a ha)

theorem Leaf.mono {β : Type u} {R Q : β → Prop} {p : Prog α β} (hp : Leaf R p) (h : ∀ b, R b → Q b) : Leaf Q p := by
  induction hp with
  | done h' => exact .done (fun b hb => h b (h' b hb))
  | call _ ih => exact .call ih

theorem leaf_ok {β : Type u} {Q : β → Prop} {b : β} (h : Q b) : Leaf Q (.done (ok b) : Prog α β) :=
  .done (fun _ hb => by cases hb; exact h)

theorem leaf_ub {β : Type u} {Q : β → Prop} {w : String} : Leaf Q (.done (.ub w) : Prog α β) :=
  .done (fun _ hb => by cases hb)

theorem mapM_mem {γ δ : Type _} (g : γ → Option δ) : ∀ (xs : List γ) (ys : List δ), xs.mapM g = some ys →
    ∀ x y, x ∈ xs → g x = some y → y ∈ ys
  | [], _, _, x, _, hx, _ => by simp at hx
  | z :: zs, ys, h, x, y, hx, hy => by
    rw [List.mapM_cons] at h
    cases hz : g z with
    | none => rw [hz] at h; cases h
    | some w =>
      cases hs : zs.mapM g with
      | none => rw [hz, hs] at h; cases h
      | some ws =>
        rw [hz, hs] at h
        have h : w :: ws = ys := by injection h
        subst h
        rcases List.mem_cons.mp hx with rfl | hx
        · rw [hz] at hy; injection hy with hy; subst hy; exact List.mem_cons_self
        · exact List.mem_cons_of_mem _ (mapM_mem g zs ws hs x y hx hy)

/-- The answers of a collective are admissible. -/
theorem exec_admissible {cs : List (Coll α)} {as : List (Ans α)} (h : exec cs = some as) (i : ℕ) (c : Coll α) (a : Ans α)
    (hc : cs[i]? = some c) (ha : as[i]? = some a) : Admissible c a := by
  cases c with
  | bcast xs =>
    have hmem : Coll.bcast xs ∈ cs := List.mem_of_getElem? hc
    cases cs with
    | nil => simp at hmem
    | cons c0 cs' =>
      unfold exec at h
      simp only [List.head?_cons] at h
      cases c0 with
      | bcast ys =>
        dsimp only at h
        rw [Option.bind_eq_some_iff] at h
        obtain ⟨xss, hm, h⟩ := h
        split at h
        · rename_i hall
          injection h with h
          have : a = .data [ys] := by
            have := List.mem_of_getElem? ha
            rw [← h, List.mem_map] at this
            obtain ⟨_, -, e⟩ := this
            exact e.symm
          subst this
          show ys.length = xs.length
          have hx : xs ∈ xss := by
            exact mapM_mem _ _ _ hm _ _ hmem rfl
          rw [List.all_eq_true] at hall
          have := hall xs hx
          simp at this
          exact this.symm
        · cases h
      | barrier => 
        dsimp only at h
        split at h
        · rename_i hall
          rw [List.all_eq_true] at hall
          have := hall _ hmem
          cases this
        · cases h
      | reduce op l b =>
        dsimp only at h
        split at h
        · rename_i hall
          rw [List.all_eq_true] at hall
          have := hall _ hmem
          cases this
        · cases h
      | _ =>
        exfalso
        dsimp only at h
        rw [mapM_none _ _ _ hmem rfl] at h
        cases h
  | _ => trivial

/-- One rank of a job, whatever the other ranks do. -/
theorem Leaf.steps {β : Type u} {n r : ℕ} (hr : r < n) {Q : β → Prop} {P P' : ℕ → Prog α β} (h : Steps n P P')
    (hP : Leaf Q (P r)) : Leaf Q (P' r) := by
  induction h with
  | refl h => rw [← h r hr]; exact hP
  | step c k a hk hc _ ih =>
    refine ih ?_
    rw [hk r hr] at hP
    cases hP with
    | call h =>
      exact h (a r) (exec_admissible hc r (c r) (a r) (by simp [hr]) (by simp [hr]))

theorem Leaf.value {β : Type u} {Q : β → Prop} {b : β} (h : Leaf Q (.done (ok b) : Prog α β)) : Q b := by
  cases h with
  | done h => exact h b rfl

/-- A job that returns reaches the state in which every rank has its value. -/
theorem steps_of_returns {β : Type} {n : ℕ} (hn : 1 ≤ n) : ∀ (p : Prog α β) (P : ℕ → Prog α β), P 0 = p → ∀ {v : ℕ → β},
    Returns n P v → Steps n P (fun r => .done (ok (v r))) := by
  intro p
  induction p with
  | done x =>
    intro P h0 v hret
    have hall : ∀ r < n, ∃ y, P r = .done y := by
      intro r hr
      cases hx : P r with
      | done y => exact ⟨y, rfl⟩
      | call c k =>
        unfold Returns at hret
        rw [runAll_stuck_of_mix P r 0 hr (by omega) (by rw [hx]; rfl) (by rw [h0]; rfl)] at hret
        cases hret
    have : Nonempty (Res β) := ⟨.ub ""⟩
    choose! y hy using hall
    unfold Returns at hret
    rw [runAll_congr hn hy, runAll_done hn] at hret
    injection hret with hret
    exact .refl (fun r hr => by rw [hy r hr, List.map_inj_left.mp hret r (List.mem_range.mpr hr)])
  | call c k ih =>
    intro P h0 v hret
    have hcall : ∀ r < n, ∃ c' k', P r = .call c' k' := by
      intro r hr
      cases hx : P r with
      | call c' k' => exact ⟨c', k', rfl⟩
      | done y =>
        unfold Returns at hret
        rw [runAll_stuck_of_mix P 0 r (by omega) hr (by rw [h0]; rfl) (by rw [hx]; rfl)] at hret
        cases hret
    have : Nonempty (Coll α) := ⟨.barrier⟩
    have : Nonempty (Ans α → Prog α β) := ⟨fun _ => .done (.ub "")⟩
    choose! cc kk hck using hcall
    unfold Returns at hret
    cases hx : exec ((List.range n).map cc) with
    | none =>
      rw [runAll_congr hn hck, runAll_stuck_of_exec hn cc _ hx] at hret
      cases hret
    | some as =>
      have hl := exec_length hx
      simp only [List.length_map, List.length_range] at hl
      have has : as = (List.range n).map (fun r => as.getD r .unit) := by
        apply List.ext_getElem (by simp [hl])
        intro i h1 h2
        simp [List.getD, h1]
      rw [has] at hx
      rw [runAll_congr hn hck, runAll_call hn cc _ _ hx] at hret
      have hk0 : kk 0 = k := by
        have := hck 0 (by omega)
        rw [h0] at this
        injection this with _ h'
        exact h'.symm
      exact .step cc kk _ hck hx (ih (as.getD 0 .unit) (fun r => kk r (as.getD r .unit)) (by simp only [hk0]) hret)

end Verif.Spmd

namespace Verif.Obj
open Verif Res Verif.Harm Verif.Fits Verif.Spmd Verif.Handle

theorem leaf_bcastI {Q : ℤ → Prop} (x : ℤ) (h : ∀ y, Q y) : Leaf Q (bcastI x) := by
  unfold bcastI
  refine .call (fun a _ => ?_)
  cases a with
  | int y => exact leaf_ok (h y)
  | _ => exact leaf_ub

/-- Only the contents of the array change. -/
def Reshaped (a b : Alm ℂ) : Prop := b.lmax = a.lmax ∧ b.mmax = a.mmax ∧ b.alm.length = a.alm.length

theorem Reshaped.shaped {l m : ℤ} {a b : Alm ℂ} (h : Reshaped a b) (ha : Shaped l m a) : Shaped l m b :=
  ⟨h.1.trans ha.1, h.2.1.trans ha.2.1, h.2.2.trans ha.2.2⟩

theorem leaf_bcastAlm (a : Alm ℂ) (size : ℤ) : Leaf (Reshaped a) (bcastAlm a size) := by
  unfold bcastAlm
  split
  · rename_i hs
    refine .call (fun ans hans => ?_)
    split
    · rename_i ys
      have hy : ys.length = (a.alm.take (size / 2).toNat).length := hans
      refine leaf_ok ⟨rfl, rfl, ?_⟩
      simp only [List.length_append, List.length_drop, hy, List.length_take]
      omega
    · exact leaf_ub
  · exact leaf_ub

/-- The components after the broadcasts. -/
def CompsOK (l m : ℤ) (G C : Alm ℂ) (pol : Bool) (c : Comps) : Prop :=
  Shaped l m c.T ∧ (pol = true → Shaped l m c.G ∧ Shaped l m c.C) ∧ (pol = false → c.G = G ∧ c.C = C)

theorem leaf_bcastComps {l m : ℤ} {G C : Alm ℂ} (pol : Bool) (c : Comps) (size : ℤ) (h : CompsOK l m G C pol c) :
    Leaf (CompsOK l m G C pol) (bcastComps pol c size) := by
  obtain ⟨h1, h2, h3⟩ := h
  unfold bcastComps
  refine (leaf_bcastAlm c.T size).bind (fun T hT => ?_)
  cases pol with
  | false => exact leaf_ok ⟨hT.shaped h1, (fun h => by cases h), h3⟩
  | true =>
    rw [if_pos rfl]
    obtain ⟨g, d⟩ := h2 rfl
    refine (leaf_bcastAlm c.G size).bind (fun G' hG => ?_)
    refine (leaf_bcastAlm c.C size).bind (fun C' hC => ?_)
    exact leaf_ok ⟨hT.shaped h1, fun _ => ⟨hG.shaped g, hC.shaped d⟩, fun h => by cases h⟩

theorem leaf_attempt {β σ : Type} {Q : σ × Option String → Prop} {r : Res β} {s : σ} {k : β → Prog ℂ (σ × Option String)}
    (hk : ∀ b, r = ok b → Leaf Q (k b)) (hs : ∀ e, Q (s, some e)) : Leaf Q (attempt r s k) := by
  unfold attempt
  cases r with
  | ok b => exact hk b rfl
  | throw m => exact leaf_ok (hs m)
  | ub w => exact leaf_ub

theorem leaf_loadComps {l m : ℤ} (h0 : 0 ≤ m) (hml : m ≤ l) (pol : Bool) (fs : Files) (chunk : ℕ) (junk : ℕ → ℂ) (rank : ℕ)
    (file : String) (size : ℤ) (c : Comps) :
    Leaf (fun r => r.2 = none → CompsOK l m c.G c.C pol r.1) (loadComps pol fs chunk junk rank file l m size c) := by
  obtain ⟨c1, e1, s1, s2, s3⟩ := setComps_ok pol junk c h0 hml
  unfold loadComps
  rw [e1]
  dsimp only
  refine leaf_attempt (fun c2 hc2 => ?_) (fun e h => by cases h)
  have hc : CompsOK l m c.G c.C pol c2 := by
    split at hc2
    · obtain ⟨t1, t2, t3⟩ := readComps_shape h0 hml hc2
      exact ⟨t1, t2, fun hp => ⟨(t3 hp).1.trans (s3 hp).1, (t3 hp).2.trans (s3 hp).2⟩⟩
    · cases hc2; exact ⟨s1, s2, s3⟩
  exact (leaf_bcastComps pol c2 size hc).bind (fun c3 h3 => leaf_ok (fun _ => h3))

theorem CompsOK.sound {l m : ℤ} (h0 : 0 ≤ m) (hml : m ≤ l) {G C : Alm ℂ} {pol : Bool} {c : Comps} (h : CompsOK l m G C pol c)
    (hG : G.alm ≠ []) (hC : C.alm ≠ []) : Sound c.T c.G c.C := by
  obtain ⟨h1, h2, h3⟩ := h
  have hT := h1.wf h0 hml
  cases pol with
  | true =>
    obtain ⟨g, d⟩ := h2 rfl
    exact ⟨hT, wf_ne_nil hT, wf_ne_nil (g.wf h0 hml), wf_ne_nil (d.wf h0 hml)⟩
  | false =>
    obtain ⟨g, d⟩ := h3 rfl
    exact ⟨hT, wf_ne_nil hT, by rw [g]; exact hG, by rw [d]; exact hC⟩

/-- The outcome of reading a beam into `b`. -/
def BeamOut (b : Beam) (r : Beam × Option String) : Prop :=
  (r.2 = none → Sound r.1.T r.1.G r.1.C ∧ r.1.lmax.isSome ∧ r.1.mmax.isSome ∧ r.1.pol.isSome) ∧
    r.1.normalized = b.normalized

theorem leaf_beamRead (fs : Files) (chunk : ℕ) (junk : ℕ → ℂ) (rank : ℕ) {bl bm : ℤ} (hl : 0 ≤ bl) (hm : 0 ≤ bm) (pol : Bool)
    (file : String) (b : Beam) (hG : b.G.alm ≠ []) (hC : b.C.alm ≠ []) :
    Leaf (BeamOut b) (beamRead fs chunk junk rank bl bm pol file b) := by
  unfold beamRead
  refine leaf_attempt (fun sz _ => ?_) (fun e => ⟨(fun h => by cases h), rfl⟩)
  refine (leaf_bcastI (Q := fun _ => True) _ (fun _ => trivial)).bind (fun lf _ => ?_)
  refine (leaf_bcastI (Q := fun _ => True) _ (fun _ => trivial)).bind (fun mf _ => ?_)
  unfold beamRead2
  split
  · exact leaf_ok ⟨(fun h => by cases h), rfl⟩
  · split
    · exact leaf_ok ⟨(fun h => by cases h), rfl⟩
    · rename_i n1 n2
      dsimp only
      by_cases hml : (beamLimits bl bm lf mf).2 ≤ (beamLimits bl bm lf mf).1
      · have h0 : 0 ≤ (beamLimits bl bm lf mf).2 := by
          unfold beamLimits; dsimp only; split <;> (try split) <;> omega
        refine (leaf_loadComps h0 hml pol fs chunk junk rank file _ _).bind (fun r hr => ?_)
        refine leaf_ok ⟨fun h => ?_, rfl⟩
        exact ⟨(hr h).sound h0 hml hG hC, rfl, rfl, rfl⟩
      · -- `mmax > lmax`: the allocation throws
        have hs : ∀ c : Comps, ∃ c' e, setComps pol junk c (beamLimits bl bm lf mf).1 (beamLimits bl bm lf mf).2 =
            (c', some e) := by
          intro c
          unfold setComps setAlm numAlms
          rw [if_neg hml]
          exact ⟨_, _, rfl⟩
        unfold loadComps
        obtain ⟨c', e, he⟩ := hs { b with pol := some pol, lmax := some (beamLimits bl bm lf mf).1,
                                          mmax := some (beamLimits bl bm lf mf).2 }.comps
        rw [he]
        exact leaf_ok ⟨(fun h => by cases h), rfl⟩

/-- The outcome of reading a sky. -/
def SkyOut (r : Sky × Option String) : Prop := r.2 = none → Sound r.1.T r.1.G r.1.C ∧ r.1.lmax.isSome

theorem leaf_skyRead (fs : Files) (chunk : ℕ) (junk : ℕ → ℂ) (rank : ℕ) {sl : ℤ} (hl : 0 ≤ sl) (pol : Bool)
    (file : String) (fwhm : ℝ) (s : Sky) (hG : s.G.alm ≠ []) (hC : s.C.alm ≠ []) :
    Leaf SkyOut (skyRead fs chunk junk rank sl pol file fwhm s) := by
  unfold skyRead
  refine leaf_attempt (fun sz _ => ?_) (fun e h => by cases h)
  refine (leaf_bcastI (Q := fun _ => True) _ (fun _ => trivial)).bind (fun lf _ => ?_)
  refine (leaf_bcastI (Q := fun _ => True) _ (fun _ => trivial)).bind (fun mf _ => ?_)
  unfold skyRead2
  split
  · exact leaf_ok (fun h => by cases h)
  · rename_i n1
    dsimp only
    have h0 : 0 ≤ (if sl > 0 then sl else lf) := by split <;> omega
    generalize (if sl > 0 then sl else lf) = l at h0 ⊢
    split
    · exact leaf_ok (fun h => by cases h)
    · refine (leaf_loadComps h0 (le_refl l) pol fs chunk junk rank file _ _).bind (fun r hr => ?_)
      cases h2 : r.2 with
      | some e => exact leaf_ok (fun h => by cases h)
      | none =>
        have hr := hr h2
        refine leaf_attempt (fun c hc => leaf_ok (fun _ => ⟨?_, rfl⟩)) (fun e h => by cases h)
        obtain ⟨h1, h3, h4⟩ := hr
        have hT := h1.wf h0 (le_refl l)
        unfold deconvolve at hc
        cases pol with
        | true =>
          obtain ⟨g, d⟩ := h3 rfl
          obtain ⟨T', G', C', e, tT, tG, tC⟩ := smoothPol_spec hT (g.wf h0 (le_refl l)) (d.wf h0 (le_refl l))
            (g.1.trans h1.1.symm) (d.1.trans h1.1.symm) (-(arcmin2rad * fwhm))
          rw [if_pos rfl, e, Res.ok_bind] at hc
          cases hc
          exact ⟨tT.1, wf_ne_nil tT.1, wf_ne_nil tG.1, wf_ne_nil tC.1⟩
        | false =>
          obtain ⟨T', e, tT⟩ := smooth_spec hT (-(arcmin2rad * fwhm))
          rw [if_neg (by decide), e, Res.ok_bind] at hc
          cases hc
          obtain ⟨g, d⟩ := h4 rfl
          exact ⟨tT.1, wf_ne_nil tT.1, by show r.1.G.alm ≠ []; rw [g]; exact hG, by show r.1.C.alm ≠ []; rw [d]; exact hC⟩

end Verif.Obj

namespace Verif.Handle
open Verif Res Verif.Obj Verif.Harm Verif.Fits Verif.Spmd

/-- C77, reading a beam: whatever the files, the object and the other ranks of the job (`P` at other indices) are, where
the call ends on a rank, with or without an exception, its outcome is one of those the histories of C77 contain. -/
theorem C77_reads_beam {n r : ℕ} (hr : r < n) (fs : Files) (chunk : ℕ) (junk : ℕ → ℂ) (bl bm : ℤ) (hl : 0 ≤ bl) (hm : 0 ≤ bm)
    (pol : Bool) (file : String) (b : Beam) (hG : b.G.alm ≠ []) (hC : b.C.alm ≠ []) (P P' : ℕ → Prog ℂ (Beam × Option String))
    (hP : P r = beamRead fs chunk junk r bl bm pol file b) (hs : Steps n P P') (x : Beam) (st : Option String)
    (hx : P' r = .done (ok (x, st))) (h : Heap) (p : ℕ) (hp : h p = some (.beam b)) : Possible h (.readBeam p x st) := by
  have hleaf := Leaf.steps hr hs (by rw [hP]; exact leaf_beamRead fs chunk junk r hl hm pol file b hG hC)
  rw [hx] at hleaf
  have := hleaf.value
  refine ⟨this.1, fun y hy => ?_⟩
  rw [hp] at hy
  cases hy
  exact this.2

/-- C77, reading a sky. -/
theorem C77_reads_sky {n r : ℕ} (hr : r < n) (fs : Files) (chunk : ℕ) (junk : ℕ → ℂ) (sl : ℤ) (hl : 0 ≤ sl)
    (pol : Bool) (file : String) (fwhm : ℝ) (s : Sky) (hG : s.G.alm ≠ []) (hC : s.C.alm ≠ [])
    (P P' : ℕ → Prog ℂ (Sky × Option String)) (hP : P r = skyRead fs chunk junk r sl pol file fwhm s) (hs : Steps n P P')
    (x : Sky) (st : Option String) (hx : P' r = .done (ok (x, st))) (h : Heap) (p : ℕ) : Possible h (.readSky p x st) := by
  have hleaf := Leaf.steps hr hs (by rw [hP]; exact leaf_skyRead fs chunk junk r hl pol file fwhm s hG hC)
  rw [hx] at hleaf
  exact hleaf.value

/-- Three ranks, of which only rank 0 sees the file: the reading ends on rank 2 without an exception, so the outcome is possible,
and the object is in order. -/
example : ∃ x : Beam, x.lmax = some 2 ∧ Possible (fun q => if q = 7 then some (.beam (Beam.fresh 0)) else none)
    (.readBeam 7 x none) ∧ Sound x.T x.G x.C := by
  obtain ⟨b', hr, hb⟩ := C30_beam_mmax_wrong (n := 3) (by decide) (fun r => if r = 0 then fileEx else fun _ => none) (fun _ => 4)
    (by decide) (fun _ _ => 0) 2 1 false "b" (fun _ => Beam.fresh 0) 2 2 _ fileEx_size (by decide) (by decide) (by decide)
    (by decide) (fileEx_good 2 2)
  have hs := steps_of_returns (by decide) _ _ rfl hr
  have := C77_reads_beam (r := 2) (by decide) _ _ _ 2 1 (by decide) (by decide) false "b" (Beam.fresh 0)
    (by simp [Beam.fresh, almDefault]) (by simp [Beam.fresh, almDefault]) _ _ rfl hs (b' 2) none rfl
    (fun q => if q = 7 then some (.beam (Beam.fresh 0)) else none) 7 rfl
  exact ⟨b' 2, (hb 2).1, this, (this.1 rfl).1⟩

/-- The restriction to orders that are not negative is needed: a file whose header says `MAX-LPOL = MAX-MPOL = -3`, read with
`lmax = mmax = -3`, gives an object with one coefficient and negative limits, without an exception. -/
theorem C77_reads_negative (junk : ℕ → ℂ) (b : Beam) : ∃ x : Beam,
    Returns 1 (fun r => beamRead (fun _ => some [⟨some (-3), some (-3), []⟩]) 4 junk r (-3) (-3) false "b" b) (fun _ => (x, none)) ∧
      x.T.lmax = -3 ∧ x.T.alm.length = 1 ∧ ¬ Sound x.T x.G x.C := by
  refine ⟨{ b with pol := some false, lmax := some (-3), mmax := some (-3), T := ⟨-3, -3, [0]⟩ }, rfl, rfl, rfl, ?_⟩
  rintro ⟨h, -⟩
  have h : (0 : ℤ) ≤ -3 := h.1
  omega

end Verif.Handle
