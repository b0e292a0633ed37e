import Verif.Api.HandleSafe

/-!
# C77: handles of the C interface
-/

namespace Verif.Handle
open Verif Res Verif.Obj Verif.Harm Verif.Num

theorem inv_run {es : List Event} {h : Heap} (hr : Run es h) : Inv es h := by
  induction hr with
  | nil => exact ⟨rfl, fun _ => rfl⟩
  | step _ hp he ih => exact inv_step ih hp he

theorem good_sky {t : List Event} {h : Heap} (hi : Inv t h) {p : ℕ} (hk : kindOf t p = some .sky) :
    ∃ x, h p = some (.sky x) ∧ skyAt h p = ok x ∧ (reads t p ≠ some .bad → Sound x.T x.G x.C) ∧
      (reads t p = some .good → ∃ l, x.lmax = some l) := by
  obtain ⟨x, h1, h2⟩ := sky_of hi hk
  have := hi.cell p
  rw [h1] at this
  obtain ⟨-, -, r, e1, e2, e3⟩ := this
  refine ⟨x, h1, h2, fun hb => e2 (fun hr => hb (by rw [e1, hr])), fun hg => ?_⟩
  rw [e1] at hg; injection hg with hg
  exact Option.isSome_iff_exists.mp (e3 hg)

theorem good_beam {t : List Event} {h : Heap} (hi : Inv t h) {p : ℕ} (hk : kindOf t p = some .beam) :
    ∃ x, h p = some (.beam x) ∧ beamAt h p = ok x ∧ x.normalized = isNorm t p ∧
      (reads t p ≠ some .bad → Sound x.T x.G x.C) ∧
      (reads t p = some .good → x.pol.isSome ∧ (∃ l, x.lmax = some l) ∧ ∃ m, x.mmax = some m) := by
  obtain ⟨x, h1, h2⟩ := beam_of hi hk
  have := hi.cell p
  rw [h1] at this
  obtain ⟨-, en, -, r, e1, e2, e3⟩ := this
  refine ⟨x, h1, h2, en, fun hb => e2 (fun hr => hb (by rw [e1, hr])), fun hg => ?_⟩
  rw [e1] at hg; injection hg with hg
  obtain ⟨a, b, c⟩ := e3 hg
  exact ⟨c, Option.isSome_iff_exists.mp a, Option.isSome_iff_exists.mp b⟩

theorem good_ne_bad {t : List Event} {p : ℕ} (h : reads t p = some .good) : reads t p ≠ some .bad := by rw [h]; simp

theorem good_pnt {t : List Event} {h : Heap} (hi : Inv t h) {p : ℕ} (hk : kindOf t p = some .pnt) :
    ∃ x, h p = some (.pnt x) ∧ pntAt h p = ok x ∧ ∀ l, cells t p = some l → PntOK x l := by
  obtain ⟨x, h1, h2⟩ := pnt_of hi hk
  have := hi.cell p
  rw [h1] at this
  exact ⟨x, h1, h2, this.2⟩

theorem good_det {t : List Event} {h : Heap} (hi : Inv t h) {p : ℕ} (hk : kindOf t p = some .det) :
    ∃ x, h p = some (.det x) ∧ detAt h p = ok x ∧ x.eps = lastEps t p ∧ some x.id = lastId t p := by
  obtain ⟨x, h1, h2⟩ := det_of hi hk
  have := hi.cell p
  rw [h1] at this
  exact ⟨x, h1, h2, this.2⟩

/-- C77: after any history, a call that uses its handles as `WellUsed` describes is defined, whatever the allocator, the files
and the other ranks do. -/
theorem C77_safe {es : List Event} {h : Heap} (hr : Run es h) {c : Call} (hp : Possible h c) (hw : WellUsed es c) :
    ∃ r h', exec h c = ok (r, h') := by
  have hi := inv_run hr
  cases c with
  | newSky al j => cases al <;> exact ⟨_, _, rfl⟩
  | newBeam al j => cases al <;> exact ⟨_, _, rfl⟩
  | newDet al => cases al <;> exact ⟨_, _, rfl⟩
  | newDetId al id => cases al <;> exact ⟨_, _, rfl⟩
  | newPnt al => cases al <;> exact ⟨_, _, rfl⟩
  | newConv al s b d pol l m o =>
    unfold exec
    dsimp only
    by_cases hx : CApi.LMAXMAX < l ∨ CApi.LMAXMAX < m
    · rw [if_pos hx]; exact ⟨_, _, rfl⟩
    · rw [if_neg hx]
      cases al with
      | null => exact ⟨_, _, rfl⟩
      | throws e => exact ⟨_, _, rfl⟩
      | «at» a =>
        dsimp only
        rcases hw with hw | hw | hw | ⟨w1, w2, w3, w4⟩
        · exact absurd (.inl hw) hx
        · exact absurd (.inr hw) hx
        · exact absurd rfl (hw a)
        · obtain ⟨x, x1, x2, -, x3⟩ := good_sky hi w1
          obtain ⟨y, y1, y2, -, -, y3⟩ := good_beam hi w2
          obtain ⟨ls, hls⟩ := x3 w3
          obtain ⟨-, ⟨lb, hlb⟩, ⟨mb, hmb⟩⟩ := y3 w4
          rw [x2, ok_bind, y2, ok_bind]
          have hc : ctor (worldOf h) s b d pol l m o =
              (pickLmax l ls lb >>= fun L => pickMmax m mb >>= fun M => ok ⟨s, b, d, pol, L, M, o, []⟩) := by
            unfold ctor worldOf
            dsimp only
            rw [x1, y1]
            dsimp only
            rw [hls, hlb, hmb]
            rfl
          rw [hc]
          unfold pickLmax pickMmax
          split_ifs <;> exact ⟨_, _, rfl⟩
  | del k p =>
    unfold exec doDel
    dsimp only
    by_cases h0 : p = 0
    · rw [if_pos h0]; exact ⟨_, _, rfl⟩
    · rw [if_neg h0]
      rcases hw with hw | ⟨w1, w2⟩
      · exact absurd hw h0
      · cases k with
        | sky => obtain ⟨x, x1, -⟩ := sky_of hi w1; rw [x1]; exact ⟨_, _, rfl⟩
        | beam => obtain ⟨x, x1, -⟩ := beam_of hi w1; rw [x1]; exact ⟨_, _, rfl⟩
        | det => obtain ⟨x, x1, -⟩ := det_of hi w1; rw [x1]; exact ⟨_, _, rfl⟩
        | conv => obtain ⟨x, x1, -⟩ := conv_of hi w1; rw [x1]; exact ⟨_, _, rfl⟩
        | pnt =>
          obtain ⟨x, x1, -, x3⟩ := good_pnt hi w1
          obtain ⟨l, hl⟩ := Option.ne_none_iff_exists'.mp (w2 rfl)
          obtain ⟨-, -, x4⟩ := x3 l hl
          rw [x1]
          obtain ⟨sz, buf⟩ := x
          rcases x4 with ⟨-, x4⟩ | ⟨-, x4⟩ <;> (dsimp only at x4; subst x4; exact ⟨_, _, rfl⟩)
  | readSky p x st => obtain ⟨y, -, y2⟩ := sky_of hi hw; unfold exec; dsimp only; rw [y2]; exact ⟨_, _, rfl⟩
  | readBeam p x st => obtain ⟨y, -, y2⟩ := beam_of hi hw; unfold exec; dsimp only; rw [y2]; exact ⟨_, _, rfl⟩
  | skyLmax p =>
    obtain ⟨y, -, y2, -, y3⟩ := good_sky hi hw.1
    obtain ⟨l, hl⟩ := y3 hw.2
    unfold exec; dsimp only; rw [y2, ok_bind, hl]; exact ⟨_, _, rfl⟩
  | beamLmax p =>
    obtain ⟨y, -, y2, -, -, y3⟩ := good_beam hi hw.1
    obtain ⟨-, ⟨l, hl⟩, -⟩ := y3 hw.2
    unfold exec; dsimp only; rw [y2, ok_bind, hl]; exact ⟨_, _, rfl⟩
  | beamMmax p =>
    obtain ⟨y, -, y2, -, -, y3⟩ := good_beam hi hw.1
    obtain ⟨-, -, ⟨l, hl⟩⟩ := y3 hw.2
    unfold exec; dsimp only; rw [y2, ok_bind, hl]; exact ⟨_, _, rfl⟩
  | normalize p =>
    obtain ⟨y, -, y2, yn, y3, y4⟩ := good_beam hi hw.1
    have : ∃ s b', Obj.normalize y = ok (s, b') := by
      rcases hw.2 with w | w
      · exact ⟨_, _, normalize_done (yn.trans w)⟩
      · exact normalize_ok (y3 (good_ne_bad w)) (y4 w).1
    obtain ⟨s, b', hb⟩ := this
    unfold exec; dsimp only; rw [y2, ok_bind, hb]; exact ⟨_, _, rfl⟩
  | normalized p => obtain ⟨y, -, y2⟩ := beam_of hi hw; unfold exec; dsimp only; rw [y2]; exact ⟨_, _, rfl⟩
  | rmMono p =>
    obtain ⟨y, -, y2, y3, -⟩ := good_sky hi hw.1
    obtain ⟨s, hs, -⟩ := rmMono_ok (y3 hw.2)
    unfold exec; dsimp only; rw [y2, ok_bind, hs]; exact ⟨_, _, rfl⟩
  | rmDip p =>
    obtain ⟨y, -, y2, y3, -⟩ := good_sky hi hw.1
    obtain ⟨s, hs, -⟩ := rmDip_ok (y3 hw.2)
    unfold exec; dsimp only; rw [y2, ok_bind, hs]; exact ⟨_, _, rfl⟩
  | dataSky p part =>
    obtain ⟨y, -, y2, y3, -⟩ := good_sky hi hw.1
    obtain ⟨-, n1, n2, n3⟩ := y3 hw.2
    unfold exec; dsimp only; rw [y2, ok_bind, if_neg (by split_ifs <;> assumption)]; exact ⟨_, _, rfl⟩
  | dataBeam p part =>
    obtain ⟨y, -, y2, -, y3, -⟩ := good_beam hi hw.1
    obtain ⟨-, n1, n2, n3⟩ := y3 hw.2
    unfold exec; dsimp only; rw [y2, ok_bind, if_neg (by split_ifs <;> assumption)]; exact ⟨_, _, rfl⟩
  | setEps p v => obtain ⟨y, -, y2⟩ := det_of hi hw; unfold exec; dsimp only; rw [y2]; exact ⟨_, _, rfl⟩
  | setId p v => obtain ⟨y, -, y2⟩ := det_of hi hw; unfold exec; dsimp only; rw [y2]; exact ⟨_, _, rfl⟩
  | getEps p =>
    obtain ⟨y, -, y2, y3, -⟩ := good_det hi hw.1
    obtain ⟨l, hl⟩ := Option.ne_none_iff_exists'.mp hw.2
    unfold exec; dsimp only; rw [y2, ok_bind, y3, hl]; exact ⟨_, _, rfl⟩
  | getId p size =>
    obtain ⟨y, -, y2, -, y3⟩ := good_det hi hw.1
    unfold exec; dsimp only; rw [y2, ok_bind, if_pos (Nat.succ_le_of_lt (hw.2 _ y3.symm))]; exact ⟨_, _, rfl⟩
  | pntAlloc p n mem =>
    obtain ⟨y, -, y2, y3⟩ := good_pnt hi hw.1
    obtain ⟨l, hl⟩ := Option.ne_none_iff_exists'.mp hw.2
    obtain ⟨-, -, y4⟩ := y3 l hl
    have : ∃ q, pntAllocOp y n mem = ok q := by
      unfold pntAllocOp
      by_cases h1 : toSize n = y.size
      · rw [if_pos h1]; exact ⟨_, rfl⟩
      · rw [if_neg h1]
        by_cases h2 : toSize n = 0
        · rcases y4 with ⟨-, y4⟩ | ⟨-, y4⟩ <;> (rw [y4]; dsimp only; rw [if_pos h2]; exact ⟨_, rfl⟩)
        · rcases y4 with ⟨-, y4⟩ | ⟨-, y4⟩ <;> (rw [y4]; dsimp only; rw [if_neg h2]; cases mem <;> exact ⟨_, rfl⟩)
    obtain ⟨q, hq⟩ := this
    unfold exec; dsimp only; rw [y2, ok_bind, hq]; exact ⟨_, _, rfl⟩
  | pntData p =>
    obtain ⟨y, -, y2⟩ := pnt_of hi hw
    unfold exec; dsimp only; rw [y2, ok_bind]; cases y.buf <;> exact ⟨_, _, rfl⟩
  | pntWrite p i v =>
    obtain ⟨y, -, y2, y3⟩ := good_pnt hi hw.1
    obtain ⟨l, hl, hil⟩ := hw.2
    obtain ⟨-, -, y4⟩ := y3 l hl
    rcases y4 with ⟨y4, -⟩ | ⟨-, y4⟩
    · rw [y4] at hil; simp at hil
    · unfold exec; dsimp only; rw [y2, ok_bind, y4]; dsimp only; rw [if_pos hil]; exact ⟨_, _, rfl⟩
  | pntRead p i =>
    obtain ⟨y, -, y2, y3⟩ := good_pnt hi hw.1
    obtain ⟨l, hl, hil⟩ := hw.2
    obtain ⟨-, -, y4⟩ := y3 l hl
    rcases y4 with ⟨y4, -⟩ | ⟨-, y4⟩
    · rw [y4] at hil; simp at hil
    · unfold exec; dsimp only; rw [y2, ok_bind, y4]; dsimp only; rw [List.getElem?_eq_getElem hil]; exact ⟨_, _, rfl⟩
  | setSky c v => obtain ⟨y, -, y2⟩ := conv_of hi hw; unfold exec; dsimp only; rw [y2]; exact ⟨_, _, rfl⟩
  | setBeam c v => obtain ⟨y, -, y2⟩ := conv_of hi hw; unfold exec; dsimp only; rw [y2]; exact ⟨_, _, rfl⟩
  | setDet c v => obtain ⟨y, -, y2⟩ := conv_of hi hw; unfold exec; dsimp only; rw [y2]; exact ⟨_, _, rfl⟩
  | convolve c p cal kern wgt data st =>
    obtain ⟨w1, w2, s, b, d, l, w3, w4, w5, w6⟩ := hw
    obtain ⟨x, x1, x2⟩ := conv_of hi w1
    obtain ⟨y, -, y2, y3⟩ := good_pnt hi w2
    have hx := hi.cell c
    rw [x1] at hx
    obtain ⟨-, hx⟩ := hx
    rw [w3] at hx
    injection hx with hx; injection hx with e1 hx; injection hx with e2 e3
    obtain ⟨p1, -, p3⟩ := y3 l w4
    have r1 : readsSamples y = ok () := by
      unfold readsSamples
      rcases p3 with ⟨q1, q2⟩ | ⟨-, q2⟩
      · rw [q2, p1, q1]; rfl
      · rw [q2]
    have r2 : readsKernel h x kern = ok () := by
      cases kern with
      | false => rfl
      | true =>
        obtain ⟨u1, u2⟩ := w5 rfl
        obtain ⟨_, -, v1⟩ := sky_of hi u1
        obtain ⟨_, -, v2⟩ := beam_of hi u2
        unfold readsKernel
        rw [← e1, ← e2, v2, ok_bind, v1]; rfl
    have r3 : readsCalib h x (decide (st = none ∧ 5 ≤ y.size ∧ cal = true)) = ok () := by
      by_cases hq : st = none ∧ 5 ≤ y.size ∧ cal = true
      · rw [decide_eq_true hq]
        obtain ⟨u1, u2⟩ := w6 hq.1 (by have := hq.2.1; rw [p1] at this; exact_mod_cast this) hq.2.2
        obtain ⟨z, -, z2, zn, -⟩ := good_beam hi u1
        unfold readsCalib
        rw [← e2, z2, ok_bind]
        dsimp only
        rw [zn]
        rcases u2 with u2 | ⟨u2, u3⟩
        · rw [u2]
        · cases isNorm es b with
          | true => rfl
          | false =>
            obtain ⟨g, -, g2, g3, -⟩ := good_det hi u2
            obtain ⟨v, hv⟩ := Option.ne_none_iff_exists'.mp u3
            dsimp only
            rw [← e3, g2, ok_bind, g3, hv]; rfl
      · rw [decide_eq_false hq]; rfl
    unfold exec; dsimp only; rw [x2, ok_bind, y2, ok_bind, r1, ok_bind, r2, ok_bind, r3, ok_bind]; exact ⟨_, _, rfl⟩

/-- C77: a call changes no object other than the ones it acts on — in particular `delete` of a sky, beam or detector leaves a
convolver that refers to it as it is, and `delete` of a convolver leaves them. -/
theorem C77_frame {h h' : Heap} {c : Call} {r : Ret} (hp : Possible h c) (he : exec h c = ok (r, h')) {a : ℕ}
    (ha : ¬touches (c, r) a) : h' a = h a := by
  have hput : ∀ p (o : Cell), p ≠ a → put h p o a = h a := fun p o hp => by
    unfold put; rw [Function.update_of_ne hp.symm]
  have hnew : ∀ (k : Kind) (o : Cell) (al : Alloc), c.makes = some k → AllocOK h al → doNew h o al = ok (r, h') → h' a = h a := by
    intro k o al hk hb hd
    cases al with
    | null => injection hd with hd; injection hd with _ hd; rw [← hd]
    | throws m => injection hd with hd; injection hd with _ hd; rw [← hd]
    | «at» b =>
      injection hd with hd; injection hd with h1 h2
      rw [← h2]
      refine hput b o (fun hba => ha (.inl ?_))
      rw [← h1, made_at hk hb.1, hba]; rfl
  have hdone : ∀ {x : Ret} {g : Heap}, (ok (x, g) : Res (Ret × Heap)) = ok (r, h') → g a = h a → h' a = h a := by
    intro x g e1 e2
    injection e1 with e1; injection e1 with _ e1; rw [← e1, e2]
  have ht : ∀ p, (match c with
    | .del _ p | .readSky p _ _ | .readBeam p _ _ | .normalize p | .rmMono p | .rmDip p | .setEps p _ | .setId p _
    | .pntAlloc p _ _ | .pntWrite p _ _ | .setSky p _ | .setBeam p _ | .setDet p _ => some p
    | _ => none) = some p → p ≠ a := by
    intro p hpp hpa
    apply ha
    refine .inr ?_
    cases c <;> first | (exfalso; cases hpp; done) | (cases hpp; exact hpa)
  cases c with
  | newSky al j => exact hnew .sky _ al rfl hp he
  | newBeam al j => exact hnew .beam _ al rfl hp he
  | newDet al => exact hnew .det _ al rfl hp.1 he
  | newDetId al id => exact hnew .det _ al rfl hp he
  | newPnt al => exact hnew .pnt _ al rfl hp.1 he
  | newConv al s b d pol l m o =>
    unfold exec at he
    dsimp only at he
    by_cases hx : CApi.LMAXMAX < l ∨ CApi.LMAXMAX < m
    · rw [if_pos hx] at he; exact hdone he rfl
    · rw [if_neg hx] at he
      cases al with
      | null => exact hdone he rfl
      | throws e => exact hdone he rfl
      | «at» b' =>
        dsimp only at he
        obtain ⟨_, -, he⟩ := bind_eq_ok.mp he
        obtain ⟨_, -, he⟩ := bind_eq_ok.mp he
        cases hc : ctor (worldOf h) s b d pol l m o with
        | throw e => rw [hc] at he; exact hdone he rfl
        | ub w => rw [hc] at he; cases he
        | ok x => rw [hc] at he; exact hnew .conv (.conv x) (.at b') rfl hp he
  | del k p =>
    unfold exec doDel at he
    dsimp only at he
    by_cases h0 : p = 0
    · rw [if_pos h0] at he; exact hdone he rfl
    · rw [if_neg h0] at he
      cases hc : h p with
      | none => rw [hc] at he; cases he
      | some c =>
        rw [hc] at he
        dsimp only at he
        by_cases hk : c.kind = k
        · rw [if_pos hk] at he
          split at he
          · cases he
          · exact hdone he (Function.update_of_ne (ht p rfl).symm _ _)
        · rw [if_neg hk] at he; cases he
  | readSky p x st => obtain ⟨y, -, he⟩ := bind_eq_ok.mp he; exact hdone he (hput p _ (ht p rfl))
  | readBeam p x st => obtain ⟨y, -, he⟩ := bind_eq_ok.mp he; exact hdone he (hput p _ (ht p rfl))
  | skyLmax p => obtain ⟨y, -, he⟩ := bind_eq_ok.mp he; obtain ⟨_, -, he⟩ := bind_eq_ok.mp he; exact hdone he rfl
  | beamLmax p => obtain ⟨y, -, he⟩ := bind_eq_ok.mp he; obtain ⟨_, -, he⟩ := bind_eq_ok.mp he; exact hdone he rfl
  | beamMmax p => obtain ⟨y, -, he⟩ := bind_eq_ok.mp he; obtain ⟨_, -, he⟩ := bind_eq_ok.mp he; exact hdone he rfl
  | normalize p =>
    obtain ⟨y, -, he⟩ := bind_eq_ok.mp he
    cases hn : Obj.normalize y with
    | ok v => rw [hn] at he; exact hdone he (hput p _ (ht p rfl))
    | throw e => rw [hn] at he; exact hdone he rfl
    | ub w => rw [hn] at he; cases he
  | normalized p => obtain ⟨y, -, he⟩ := bind_eq_ok.mp he; exact hdone he rfl
  | rmMono p =>
    obtain ⟨y, -, he⟩ := bind_eq_ok.mp he
    cases hn : removeMonopole y with
    | ok v => rw [hn] at he; exact hdone he (hput p _ (ht p rfl))
    | throw e => rw [hn] at he; exact hdone he rfl
    | ub w => rw [hn] at he; cases he
  | rmDip p =>
    obtain ⟨y, -, he⟩ := bind_eq_ok.mp he
    cases hn : removeDipole y with
    | ok v => rw [hn] at he; exact hdone he (hput p _ (ht p rfl))
    | throw e => rw [hn] at he; exact hdone he rfl
    | ub w => rw [hn] at he; cases he
  | dataSky p part =>
    obtain ⟨y, -, he⟩ := bind_eq_ok.mp he
    generalize (if part = 0 then y.T else if part = 1 then y.G else y.C).alm = q at he
    by_cases hq : q = []
    · rw [if_pos hq] at he; cases he
    · rw [if_neg hq] at he; exact hdone he rfl
  | dataBeam p part =>
    obtain ⟨y, -, he⟩ := bind_eq_ok.mp he
    generalize (if part = 0 then y.T else if part = 1 then y.G else y.C).alm = q at he
    by_cases hq : q = []
    · rw [if_pos hq] at he; cases he
    · rw [if_neg hq] at he; exact hdone he rfl
  | setEps p v => obtain ⟨y, -, he⟩ := bind_eq_ok.mp he; exact hdone he (hput p _ (ht p rfl))
  | setId p v => obtain ⟨y, -, he⟩ := bind_eq_ok.mp he; exact hdone he (hput p _ (ht p rfl))
  | getEps p => obtain ⟨y, -, he⟩ := bind_eq_ok.mp he; obtain ⟨_, -, he⟩ := bind_eq_ok.mp he; exact hdone he rfl
  | getId p size =>
    obtain ⟨y, -, he⟩ := bind_eq_ok.mp he
    by_cases hq : y.id.length + 1 ≤ size
    · rw [if_pos hq] at he; exact hdone he rfl
    · rw [if_neg hq] at he; cases he
  | pntAlloc p n mem =>
    obtain ⟨y, -, he⟩ := bind_eq_ok.mp he
    obtain ⟨q, -, he⟩ := bind_eq_ok.mp he
    exact hdone he (hput p _ (ht p rfl))
  | pntData p =>
    obtain ⟨y, -, he⟩ := bind_eq_ok.mp he
    cases hb : y.buf <;> rw [hb] at he <;> exact hdone he rfl
  | pntWrite p i v =>
    obtain ⟨y, -, he⟩ := bind_eq_ok.mp he
    cases hb : y.buf with
    | null => rw [hb] at he; cases he
    | freed => rw [hb] at he; cases he
    | own l =>
      rw [hb] at he
      dsimp only at he
      by_cases hl : i < l.length
      · rw [if_pos hl] at he; exact hdone he (hput p _ (ht p rfl))
      · rw [if_neg hl] at he; cases he
  | pntRead p i =>
    obtain ⟨y, -, he⟩ := bind_eq_ok.mp he
    cases hb : y.buf with
    | null => rw [hb] at he; cases he
    | freed => rw [hb] at he; cases he
    | own l =>
      rw [hb] at he
      dsimp only at he
      cases hl : l[i]? with
      | none => rw [hl] at he; cases he
      | some v => rw [hl] at he; exact hdone he rfl
  | setSky p v => obtain ⟨y, -, he⟩ := bind_eq_ok.mp he; exact hdone he (hput p _ (ht p rfl))
  | setBeam p v => obtain ⟨y, -, he⟩ := bind_eq_ok.mp he; exact hdone he (hput p _ (ht p rfl))
  | setDet p v => obtain ⟨y, -, he⟩ := bind_eq_ok.mp he; exact hdone he (hput p _ (ht p rfl))
  | convolve c p cal kern wgt data st =>
    obtain ⟨x, -, he⟩ := bind_eq_ok.mp he
    obtain ⟨y, -, he⟩ := bind_eq_ok.mp he
    obtain ⟨_, -, he⟩ := bind_eq_ok.mp he
    obtain ⟨_, -, he⟩ := bind_eq_ok.mp he
    obtain ⟨_, -, he⟩ := bind_eq_ok.mp he
    refine hdone he ?_
    have h1 : c ≠ a := fun hc => ha (.inr (.inl hc))
    have h2 : p ≠ a := fun hc => ha (.inr (.inr hc))
    unfold put
    rw [Function.update_of_ne h2.symm, Function.update_of_ne h1.symm]

/-- C77: getters and reads return what was last stored through the same handle since it was made. -/
theorem C77_values {es : List Event} {h : Heap} (hr : Run es h) {p : ℕ} {r : Ret} {h' : Heap} :
    (exec h (.getEps p) = ok (r, h') → ∃ x, lastEps es p = some x ∧ r = .out 0 x) ∧
    (∀ size, exec h (.getId p size) = ok (r, h') → ∃ s, lastId es p = some s ∧ r = .str 0 s) ∧
    (exec h (.normalized p) = ok (r, h') → r = .status (if isNorm es p then 1 else 0)) ∧
    (∀ i l, cells es p = some l → exec h (.pntRead p i) = ok (r, h') → ∃ v, l[i]? = some v ∧ r = .elem v) ∧
    (exec h (.skyLmax p) = ok (r, h') ∨ exec h (.beamLmax p) = ok (r, h') →
      ∃ l m, lims es p = some (some l, m) ∧ r = .status l) ∧
    (exec h (.beamMmax p) = ok (r, h') → ∃ l m, lims es p = some (l, some m) ∧ r = .status m) := by
  have hi := inv_run hr
  have hkn : ∀ {x : Option ℤ} {l : ℤ}, known x = ok l → x = some l := by
    intro x l hx; cases x with
    | none => cases hx
    | some v => injection hx with hx; rw [hx]
  refine ⟨fun he => ?_, fun size he => ?_, fun he => ?_, fun i l hl he => ?_, fun he => ?_, fun he => ?_⟩
  · obtain ⟨y, hy, he⟩ := bind_eq_ok.mp he
    obtain ⟨e, hk, he⟩ := bind_eq_ok.mp he
    have := hi.cell p
    rw [detAt_ok hy] at this
    obtain ⟨-, h2, -⟩ := this
    injection he with he; injection he with he _
    refine ⟨e, ?_, he.symm⟩
    rw [← h2]
    cases hx : y.eps with
    | none => rw [hx] at hk; cases hk
    | some v => rw [hx] at hk; injection hk with hk; rw [hk]
  · obtain ⟨y, hy, he⟩ := bind_eq_ok.mp he
    have := hi.cell p
    rw [detAt_ok hy] at this
    obtain ⟨-, -, h3⟩ := this
    by_cases hq : y.id.length + 1 ≤ size
    · rw [if_pos hq] at he
      injection he with he; injection he with he _
      exact ⟨_, h3.symm, he.symm⟩
    · rw [if_neg hq] at he; cases he
  · obtain ⟨y, hy, he⟩ := bind_eq_ok.mp he
    have := hi.cell p
    rw [beamAt_ok hy] at this
    obtain ⟨-, h2, -⟩ := this
    injection he with he; injection he with he _
    rw [← he, h2]
  · obtain ⟨y, hy, he⟩ := bind_eq_ok.mp he
    have := hi.cell p
    rw [pntAt_ok hy] at this
    obtain ⟨-, h2⟩ := this
    obtain ⟨-, -, p3⟩ := h2 l hl
    rcases p3 with ⟨-, p3⟩ | ⟨-, p3⟩
    · rw [p3] at he; cases he
    · rw [p3] at he
      dsimp only at he
      cases hv : l[i]? with
      | none => rw [hv] at he; cases he
      | some v => rw [hv] at he; injection he with he; injection he with he _; exact ⟨v, rfl, he.symm⟩
  · rcases he with he | he
    · obtain ⟨y, hy, he⟩ := bind_eq_ok.mp he
      obtain ⟨l, hl, he⟩ := bind_eq_ok.mp he
      have := hi.cell p
      rw [skyAt_ok hy] at this
      injection he with he; injection he with he _
      exact ⟨l, _, by rw [this.2.1, hkn hl], he.symm⟩
    · obtain ⟨y, hy, he⟩ := bind_eq_ok.mp he
      obtain ⟨l, hl, he⟩ := bind_eq_ok.mp he
      have := hi.cell p
      rw [beamAt_ok hy] at this
      injection he with he; injection he with he _
      exact ⟨l, _, by rw [this.2.2.1, hkn hl], he.symm⟩
  · obtain ⟨y, hy, he⟩ := bind_eq_ok.mp he
    obtain ⟨l, hl, he⟩ := bind_eq_ok.mp he
    have := hi.cell p
    rw [beamAt_ok hy] at this
    injection he with he; injection he with he _
    exact ⟨_, l, by rw [this.2.2.1, hkn hl], he.symm⟩

/-- C77: what is allocated after any history is exactly what was made and not deleted; when everything was deleted, nothing is
left — also after constructors that threw. -/
theorem C77_no_leak {es : List Event} {h : Heap} (hr : Run es h) :
    (∀ a, (h a).map Cell.kind = kindOf es a) ∧ ((∀ a, kindOf es a = none) → h = fun _ => none) := by
  have hi := inv_run hr
  have key : ∀ a, (h a).map Cell.kind = kindOf es a := by
    intro a
    have := hi.cell a
    cases hc : h a with
    | none => rw [hc] at this; exact this.symm
    | some c => rw [hc] at this; cases c <;> exact this.1.symm
  refine ⟨key, fun hn => funext fun a => ?_⟩
  have := key a
  rw [hn a] at this
  exact Option.map_eq_none_iff.mp this

/-- Deleting a list of handles, one call each. -/
noncomputable def delAll (h : Heap) : List (Kind × ℕ) → Res Heap
  | [] => ok h
  | (k, p) :: ps => exec h (.del k p) >>= fun x => delAll x.2 ps

/-- C77: live objects can be deleted in any order: every order succeeds and leaves exactly the other objects. -/
theorem C77_delete_any_order {es : List Event} {h : Heap} (hr : Run es h) (ps : List (Kind × ℕ)) (hnd : (ps.map Prod.snd).Nodup)
    (hk : ∀ k p, (k, p) ∈ ps → kindOf es p = some k ∧ (k = .pnt → cells es p ≠ none)) (qs : List (Kind × ℕ)) (hq : qs.Perm ps) :
    delAll h qs = ok (fun a => if a ∈ ps.map Prod.snd then none else h a) := by
  have hi := inv_run hr
  have key : ∀ (qs : List (Kind × ℕ)) (g : Heap), (qs.map Prod.snd).Nodup →
      (∀ k p, (k, p) ∈ qs → g p = h p ∧ kindOf es p = some k ∧ (k = .pnt → cells es p ≠ none)) →
      delAll g qs = ok (fun a => if a ∈ qs.map Prod.snd then none else g a) := by
    intro qs
    induction qs with
    | nil => intro g _ _; simp [delAll]
    | cons q qs ih =>
      intro g hnd hk
      obtain ⟨k, p⟩ := q
      obtain ⟨h1, h2, h3⟩ := hk k p (by simp)
      have hd : exec g (.del k p) = ok (.status 0, Function.update g p none) := by
        have hc := hi.cell p
        have hp0 : p ≠ 0 := by
          rintro rfl
          rw [hi.zero] at hc
          change kindOf es 0 = none at hc
          rw [hc] at h2; cases h2
        unfold exec doDel
        dsimp only
        rw [if_neg hp0, h1]
        cases hx : h p with
        | none => rw [hx] at hc; change kindOf es p = none at hc; rw [hc] at h2; cases h2
        | some c =>
          rw [hx] at hc
          dsimp only
          have hkk : c.kind = k := by
            have := (C77_no_leak hr).1 p
            rw [hx, h2] at this
            simpa using this
          rw [if_pos hkk]
          cases c with
          | pnt y =>
            obtain ⟨l, hl⟩ := Option.ne_none_iff_exists'.mp (h3 hkk.symm)
            obtain ⟨-, -, x4⟩ := hc.2 l hl
            obtain ⟨sz, buf⟩ := y
            rcases x4 with ⟨-, x4⟩ | ⟨-, x4⟩ <;> (dsimp only at x4; subst x4; rfl)
          | _ => rfl
      rw [List.map_cons, List.nodup_cons] at hnd
      show (exec g (.del k p) >>= fun x => delAll x.2 qs) = _
      rw [hd, ok_bind]
      rw [ih (Function.update g p none) hnd.2 (fun k' p' hm => ?_)]
      · congr 1
        funext a
        simp only [List.map_cons, List.mem_cons]
        by_cases ha : a ∈ qs.map Prod.snd
        · rw [if_pos ha, if_pos (.inr ha)]
        · rw [if_neg ha]
          by_cases hap : a = p
          · subst hap; rw [Function.update_self, if_pos (.inl rfl)]
          · rw [Function.update_of_ne hap, if_neg (by simp [hap, ha])]
      · obtain ⟨g1, g2⟩ := hk k' p' (List.mem_cons_of_mem _ hm)
        refine ⟨?_, g2⟩
        rw [Function.update_of_ne ?_, g1]
        rintro rfl
        exact hnd.1 (List.mem_map.mpr ⟨(k', p'), hm, rfl⟩)
  have hmem : ∀ a, a ∈ qs.map Prod.snd ↔ a ∈ ps.map Prod.snd := fun a => (hq.map Prod.snd).mem_iff
  rw [key qs h ((hq.map Prod.snd).nodup_iff.mpr hnd) (fun k p hm => ⟨rfl, hk k p (hq.mem_iff.mp hm)⟩)]
  simp only [hmem]

/-! ## the other way round: what is undefined -/

/-- The handles a call dereferences whatever happens, and the class it takes them for. -/
def Call.needs : Call → List (ℕ × Kind)
  | .del k p => if p = 0 then [] else [(p, k)]
  | .readSky p _ _ | .skyLmax p | .rmMono p | .rmDip p | .dataSky p _ => [(p, .sky)]
  | .readBeam p _ _ | .beamLmax p | .beamMmax p | .normalize p | .normalized p | .dataBeam p _ => [(p, .beam)]
  | .setEps p _ | .getEps p | .setId p _ | .getId p _ => [(p, .det)]
  | .pntAlloc p _ _ | .pntData p | .pntWrite p _ _ | .pntRead p _ => [(p, .pnt)]
  | .setSky c _ | .setBeam c _ | .setDet c _ => [(c, .conv)]
  | .convolve c p _ _ _ _ _ => [(c, .conv), (p, .pnt)]
  | _ => []

theorem skyAt_bad {h : Heap} {p : ℕ} (hk : (h p).map Cell.kind ≠ some .sky) : ∃ w, skyAt h p = ub w := by
  unfold skyAt
  split
  · rename_i x hx; rw [hx] at hk; exact absurd rfl hk
  · exact ⟨_, rfl⟩

theorem beamAt_bad {h : Heap} {p : ℕ} (hk : (h p).map Cell.kind ≠ some .beam) : ∃ w, beamAt h p = ub w := by
  unfold beamAt
  split
  · rename_i x hx; rw [hx] at hk; exact absurd rfl hk
  · exact ⟨_, rfl⟩

theorem kindOf_zero {es : List Event} {h : Heap} (hr : Run es h) : kindOf es 0 = none := by
  have := (C77_no_leak hr).1 0
  rw [(inv_run hr).zero] at this; exact this.symm

/-- C77: the error handling of the C interface does not extend to handles: a call whose handle is null, deleted, never made, or
of another class is undefined, never a failure status (only `delete` accepts the null pointer). -/
theorem C77_bad_handle {es : List Event} {h : Heap} (hr : Run es h) {c : Call} {p : ℕ} {k : Kind} (hn : (p, k) ∈ c.needs)
    (hk : kindOf es p ≠ some k) : ∃ w, exec h c = ub w := by
  have hkk := (C77_no_leak hr).1 p
  rw [← hkk] at hk
  have hs : k = .sky → ∃ w, skyAt h p = ub w := by
    rintro rfl; unfold skyAt
    split
    · rename_i x hx; rw [hx] at hk; exact absurd rfl hk
    · exact ⟨_, rfl⟩
  have hb : k = .beam → ∃ w, beamAt h p = ub w := by
    rintro rfl; unfold beamAt
    split
    · rename_i x hx; rw [hx] at hk; exact absurd rfl hk
    · exact ⟨_, rfl⟩
  have hd : k = .det → ∃ w, detAt h p = ub w := by
    rintro rfl; unfold detAt
    split
    · rename_i x hx; rw [hx] at hk; exact absurd rfl hk
    · exact ⟨_, rfl⟩
  have hp : k = .pnt → ∃ w, pntAt h p = ub w := by
    rintro rfl; unfold pntAt
    split
    · rename_i x hx; rw [hx] at hk; exact absurd rfl hk
    · exact ⟨_, rfl⟩
  have hc : k = .conv → ∃ w, convAt h p = ub w := by
    rintro rfl; unfold convAt
    split
    · rename_i x hx; rw [hx] at hk; exact absurd rfl hk
    · exact ⟨_, rfl⟩
  cases c with
  | del k' p' =>
    unfold Call.needs at hn
    dsimp only at hn
    by_cases h0 : p' = 0
    · rw [if_pos h0] at hn; cases hn
    · rw [if_neg h0] at hn
      rw [List.mem_singleton] at hn
      injection hn with h1 h2; subst h1 h2
      unfold exec doDel
      dsimp only
      rw [if_neg h0]
      cases hx : h p with
      | none => exact ⟨_, rfl⟩
      | some o =>
        rw [hx] at hk
        dsimp only
        rw [if_neg (fun h => hk (by rw [← h]; rfl))]
        exact ⟨_, rfl⟩
  | convolve c' p' cal kern wgt data st =>
    unfold Call.needs at hn
    dsimp only at hn
    rw [List.mem_cons, List.mem_singleton] at hn
    rcases hn with hn | hn
    · injection hn with h1 h2; subst h1
      obtain ⟨w, hw⟩ := hc h2
      exact ⟨w, by unfold exec; dsimp only; rw [hw]; rfl⟩
    · injection hn with h1 h2; subst h1
      obtain ⟨w, hw⟩ := hp h2
      unfold exec; dsimp only
      cases hcc : convAt h c' with
      | ok x => exact ⟨w, by rw [ok_bind, hw]; rfl⟩
      | ub w' => exact ⟨w', rfl⟩
      | throw m => unfold convAt at hcc; split at hcc <;> cases hcc
  | newSky al j => cases hn
  | newBeam al j => cases hn
  | newDet al => cases hn
  | newDetId al id => cases hn
  | newPnt al => cases hn
  | newConv al s b d pol l m o => cases hn
  | _ =>
    unfold Call.needs at hn
    dsimp only at hn
    rw [List.mem_singleton] at hn
    injection hn with h1 h2; subst h1
    first
    | (obtain ⟨w, hw⟩ := hs h2; exact ⟨w, by unfold exec; dsimp only; rw [hw]; rfl⟩)
    | (obtain ⟨w, hw⟩ := hb h2; exact ⟨w, by unfold exec; dsimp only; rw [hw]; rfl⟩)
    | (obtain ⟨w, hw⟩ := hd h2; exact ⟨w, by unfold exec; dsimp only; rw [hw]; rfl⟩)
    | (obtain ⟨w, hw⟩ := hp h2; exact ⟨w, by unfold exec; dsimp only; rw [hw]; rfl⟩)
    | (obtain ⟨w, hw⟩ := hc h2; exact ⟨w, by unfold exec; dsimp only; rw [hw]; rfl⟩)

/-- C77: a convolver outlives the sky and beam it refers to only as long as it does not enter the kernel: a run with samples
after the sky or beam was deleted (and no sky or beam took its address) is undefined. -/
theorem C77_dangling {es : List Event} {h : Heap} (hr : Run es h) {c p s b d : ℕ} {cal : Bool} {wgt : List ℝ}
    {data : List (Option ℝ)} {st : Option String} (hh : held es c = some (s, b, d))
    (hdead : kindOf es s ≠ some .sky ∨ kindOf es b ≠ some .beam) (hc : kindOf es c = some .conv)
    (hp : kindOf es p = some .pnt) (hcells : cells es p ≠ none) : ∃ w, exec h (.convolve c p cal true wgt data st) = ub w := by
  have hi := inv_run hr
  obtain ⟨x, x1, x2⟩ := conv_of hi hc
  have hx := hi.cell c
  rw [x1] at hx
  obtain ⟨-, hx⟩ := hx
  rw [hh] at hx
  injection hx with hx; injection hx with e1 hx; injection hx with e2 e3
  obtain ⟨y, -, y2, y3⟩ := good_pnt hi hp
  obtain ⟨l, hl⟩ := Option.ne_none_iff_exists'.mp hcells
  obtain ⟨p1, -, p3⟩ := y3 l hl
  have r1 : readsSamples y = ok () := by
    unfold readsSamples
    rcases p3 with ⟨q1, q2⟩ | ⟨-, q2⟩
    · rw [q2, p1, q1]; rfl
    · rw [q2]
  have r2 : ∃ w, readsKernel h x true = ub w := by
    unfold readsKernel
    rw [← e1, ← e2]
    have ks := (C77_no_leak hr).1 s
    have kb := (C77_no_leak hr).1 b
    by_cases hb : kindOf es b = some .beam
    · obtain ⟨z, -, z2⟩ := beam_of hi hb
      rw [z2, ok_bind]
      rcases hdead with hd | hd
      · rw [← ks] at hd
        obtain ⟨w, hw⟩ := skyAt_bad hd
        exact ⟨w, by rw [hw]; rfl⟩
      · exact absurd hb hd
    · rw [← kb] at hb
      obtain ⟨w, hw⟩ := beamAt_bad hb
      exact ⟨w, by rw [hw]; rfl⟩
  obtain ⟨w, r2⟩ := r2
  exact ⟨w, by unfold exec; dsimp only; rw [x2, ok_bind, y2, ok_bind, r1, ok_bind, r2]; rfl⟩

/-- C77: a failed `conviqt_pointing_alloc` (status -1) poisons the pointing: repeating the call reports success although no memory
was obtained, `conviqt_pointing_data` then returns the null pointer or a released block, and if the pointing owned a block
before, deleting it is undefined. -/
theorem C77_failed_alloc {es : List Event} {h : Heap} (hr : Run es h) {p : ℕ} {n : ℤ} {l : List (Option ℝ)}
    (hk : kindOf es p = some .pnt) (hl : cells es p = some l) {h1 : Heap}
    (he : exec h (.pntAlloc p n none) = ok (.status (-1), h1)) :
    (∃ h2, exec h1 (.pntAlloc p n none) = ok (.status 0, h2) ∧
      ((l = [] ∧ exec h2 (.pntData p) = ok (.ptr 0, h2)) ∨
       (l ≠ [] ∧ exec h2 (.pntData p) = ok (.dangling, h2) ∧ ∃ w, exec h2 (.del .pnt p) = ub w))) := by
  have hi := inv_run hr
  obtain ⟨y, y1, y2, y3⟩ := good_pnt hi hk
  obtain ⟨p1, p2, p3⟩ := y3 l hl
  obtain ⟨y', hy', he⟩ := bind_eq_ok.mp he
  rw [y2] at hy'; injection hy' with hy'; subst hy'
  obtain ⟨q, hq, he⟩ := bind_eq_ok.mp he
  injection he with he; injection he with e1 e2
  injection e1 with e1
  have hq2 : q.2 = ⟨toSize n, if l = [] then .null else .freed⟩ ∧ toSize n ≠ y.size := by
    unfold pntAllocOp at hq
    by_cases h1 : toSize n = y.size
    · rw [if_pos h1] at hq; injection hq with hq; rw [← hq] at e1; cases e1
    · rw [if_neg h1] at hq
      refine ⟨?_, h1⟩
      rcases p3 with ⟨q1, q2⟩ | ⟨q1, q2⟩
      all_goals
        rw [q2] at hq
        dsimp only at hq
        by_cases h2 : toSize n = 0
        · rw [if_pos h2] at hq; injection hq with hq; rw [← hq] at e1; cases e1
        · rw [if_neg h2] at hq; injection hq with hq
          rw [← hq]
          simp [q1]
  have hp0 : p ≠ 0 := ne_zero hi y1
  have hg : h1 p = some (.pnt q.2) := by rw [← e2]; unfold put; rw [Function.update_self]
  have hat : pntAt h1 p = ok q.2 := by unfold pntAt; rw [hg]
  have hag : pntAllocOp q.2 n none = ok (0, q.2) := by
    unfold pntAllocOp; rw [if_pos (by rw [hq2.1])]
  refine ⟨put h1 p (.pnt q.2), by unfold exec; dsimp only; rw [hat, ok_bind, hag]; rfl, ?_⟩
  have hput : put h1 p (.pnt q.2) = h1 := by
    unfold put; rw [← hg]; exact Function.update_eq_self p h1
  rw [hput]
  by_cases hl0 : l = []
  · refine .inl ⟨hl0, ?_⟩
    unfold exec; dsimp only; rw [hat, ok_bind, hq2.1, if_pos hl0]
  · refine .inr ⟨hl0, ?_, ?_⟩
    · unfold exec; dsimp only; rw [hat, ok_bind, hq2.1, if_neg hl0]
    · unfold exec doDel
      dsimp only
      rw [if_neg hp0, hg, hq2.1, if_neg hl0]
      exact ⟨_, rfl⟩

/-! ## witnesses -/

/-- A session: detector 3 is made and gets an epsilon; detector 7 is deleted and its address comes back as a pointing. -/
theorem session_runs : ∃ es h, Run es h ∧ kindOf es 3 = some .det ∧ lastEps es 3 = some (1 / 2) ∧ kindOf es 7 = some .pnt ∧
    cells es 7 = some [none, some 5] ∧ lastId es 3 = some ['a'] := by
  have r1 := Run.step (c := .newDetId (.at 3) ['a']) Run.nil ⟨by decide, rfl⟩ rfl
  have r2 := Run.step (c := .setEps 3 (1 / 2)) r1 trivial rfl
  have r3 := Run.step (c := .newDet (.at 7)) r2 ⟨⟨by decide, rfl⟩, by simp⟩ rfl
  have r4 := Run.step (c := .setEps 7 1) r3 trivial rfl
  have r5 := Run.step (c := .del .det 7) r4 trivial rfl
  have r6 := Run.step (c := .newPnt (.at 7)) r5 ⟨⟨by decide, rfl⟩, by simp⟩ rfl
  have r7 := Run.step (c := .pntAlloc 7 2 (some [none, none])) r6
    ⟨by decide, fun l hl => by injection hl with hl; subst hl; decide⟩ rfl
  have r8 := Run.step (c := .pntWrite 7 1 5) r7 trivial rfl
  exact ⟨_, _, r8, rfl, rfl, rfl, rfl, rfl⟩

/-- `C77_safe` and `C77_values` apply to it. -/
example : ∃ es h r h', Run es h ∧ exec h (.getEps 3) = ok (r, h') ∧ r = .out 0 (1 / 2) := by
  obtain ⟨es, h, hr, h1, h2, -⟩ := session_runs
  obtain ⟨r, h', he⟩ := C77_safe hr (c := .getEps 3) trivial ⟨h1, by rw [h2]; simp⟩
  obtain ⟨x, e1, e2⟩ := (C77_values hr).1 he
  rw [h2] at e1; injection e1 with e1; subst e1
  exact ⟨es, h, r, h', hr, he, e2⟩

example : ∃ es h r h', Run es h ∧ exec h (.pntRead 7 1) = ok (r, h') ∧ r = .elem (some 5) := by
  obtain ⟨es, h, hr, -, -, h3, h4, -⟩ := session_runs
  obtain ⟨r, h', he⟩ := C77_safe hr (c := .pntRead 7 1) trivial ⟨h3, _, h4, by decide⟩
  obtain ⟨x, e1, e2⟩ := (C77_values hr).2.2.2.1 1 _ h4 he
  injection e1 with e1; subst e1
  exact ⟨es, h, r, h', hr, he, e2⟩

/-- A second allocation of the same pointing fails: the pointing is lost. -/
example : ∃ es h h1, Run es h ∧ exec h (.pntAlloc 7 3 none) = ok (.status (-1), h1) ∧
    ∃ h2, exec h1 (.pntAlloc 7 3 none) = ok (.status 0, h2) ∧ ∃ w, exec h2 (.del .pnt 7) = ub w := by
  obtain ⟨es, h, hr, -, -, h3, h4, -⟩ := session_runs
  obtain ⟨y, y1, y2, y3⟩ := good_pnt (inv_run hr) h3
  obtain ⟨p1, -, p3⟩ := y3 _ h4
  have he : ∃ h1, exec h (.pntAlloc 7 3 none) = ok (.status (-1), h1) := by
    rcases p3 with ⟨p3, -⟩ | ⟨-, p3⟩
    · cases p3
    · refine ⟨put h 7 (.pnt ⟨3, .freed⟩), ?_⟩
      unfold exec pntAllocOp; dsimp only
      rw [y2, ok_bind, if_neg (by rw [p1]; decide), p3]
      rfl
  obtain ⟨h1, he⟩ := he
  obtain ⟨h2, e1, e2⟩ := C77_failed_alloc hr h3 h4 he
  rcases e2 with ⟨e2, -⟩ | ⟨-, -, e2⟩
  · cases e2
  · exact ⟨es, h, h1, hr, he, h2, e1, e2⟩

/-- A whole session with a convolver: everything is read, the convolver is made, the sky is deleted. -/
theorem session2 : ∃ es h, Run es h ∧ kindOf es 1 = none ∧ kindOf es 2 = some .beam ∧ kindOf es 4 = some .pnt ∧
    kindOf es 5 = some .conv ∧ held es 5 = some (1, 2, 9) ∧ cells es 4 = some [] := by
  have hw : wAlm.WF := wAlm_wf
  have hs : Sound wAlm wAlm wAlm := ⟨hw, wf_ne_nil hw, wf_ne_nil hw, wf_ne_nil hw⟩
  have r1 := Run.step (c := .newSky (.at 1) 0) Run.nil ⟨by decide, rfl⟩ rfl
  have r2 := Run.step (c := .newBeam (.at 2) 0) r1 ⟨by decide, rfl⟩ rfl
  have r3 := Run.step (c := .readSky 1 ⟨wAlm, wAlm, wAlm, some 2, some true⟩ none) r2 (fun _ => ⟨hs, rfl⟩) rfl
  have r4 := Run.step (c := .readBeam 2 ⟨wAlm, wAlm, wAlm, false, some 2, some 2, some true⟩ none) r3
    ⟨fun _ => ⟨hs, rfl, rfl, rfl⟩, fun y hy => by
      injection hy with hy; injection hy with hy; rw [← hy]; rfl⟩ rfl
  have r5 := Run.step (c := .newPnt (.at 4)) r4 ⟨⟨by decide, rfl⟩, by simp⟩ rfl
  have r6 := Run.step (c := .newConv (.at 5) 1 2 9 true 2 2 1) r5 ⟨by decide, rfl⟩ rfl
  have r7 := Run.step (c := .del .sky 1) r6 trivial rfl
  exact ⟨_, _, r7, rfl, rfl, rfl, rfl, rfl, rfl⟩

/-- The convolver is still there, using it with samples anywhere is undefined, but it and the rest can be deleted. -/
example : ∃ es h, Run es h ∧ (∃ w, exec h (.convolve 5 4 true true [] [] none) = ub w) ∧
    (∃ h', delAll h [(.beam, 2), (.conv, 5)] = ok h') ∧ ∃ h', delAll h [(.conv, 5), (.beam, 2)] = ok h' := by
  obtain ⟨es, h, hr, h1, h2, h3, h4, h5, h6⟩ := session2
  have hk : ∀ k p, (k, p) ∈ [(Kind.beam, 2), (Kind.conv, 5)] → kindOf es p = some k ∧ (k = .pnt → cells es p ≠ none) := by
    intro k p hm
    simp only [List.mem_cons, Prod.mk.injEq, List.not_mem_nil, or_false] at hm
    rcases hm with ⟨rfl, rfl⟩ | ⟨rfl, rfl⟩
    · exact ⟨h2, by simp⟩
    · exact ⟨h4, by simp⟩
  refine ⟨es, h, hr, C77_dangling hr h5 (.inl (by rw [h1]; simp)) h4 h3 (by rw [h6]; simp), ⟨_, C77_delete_any_order hr _ (by decide) hk _ (List.Perm.refl _)⟩,
    ⟨_, C77_delete_any_order hr _ (by decide) hk _ (List.Perm.swap _ _ _)⟩⟩

end Verif.Handle
