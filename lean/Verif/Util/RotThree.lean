import Verif.Util.RotInvar
import Verif.Util.RotAxis
import Verif.Num.SphereInt

/-!
# The other overloads of `rotate_alm` (C71): the model

levels/Healpix_cxx/alm_powspec_tools.cc:355-419 (three components), 429-435 and 440-447 (rotation matrix).  Exact arithmetic.
-/

namespace Verif.Risbo

open Verif Res Verif.Num Verif.Harm Verif.PowSpec Verif.Share Verif.Rot

/-- The body of the innermost loop with the values read before it, alm_powspec_tools.cc:393-405. -/
noncomputable def exec3 (aT aG aC : Alm ℂ) (l : ℕ) (exppsi : List ℂ) (d : A2) (tmp : List ℂ × List ℂ × List ℂ) (e : Ev) :
    Res (List ℂ × List ℂ × List ℂ) := do
  let x ← rd exppsi e.mm
  let t ← aT.get l e.mm
  let g ← aG.get l e.mm
  let c ← aC.get l e.mm
  let t1T := t * x
  let t1G := g * x
  let t1C := c * x
  let u ← d.get ((l : ℤ) - e.mm) ((l : ℤ) - e.m)
  let v ← d.get ((l : ℤ) - e.mm) ((l : ℤ) + e.m)
  let d1 := if e.flip2 then -u else u
  let d2 := if e.flip then -v else v
  let zT ← rd tmp.1 e.m
  let tT ← wr tmp.1 e.m ⟨zT.re + t1T.re * (d1 + d2), zT.im + t1T.im * (d1 - d2)⟩
  let zG ← rd tmp.2.1 e.m
  let tG ← wr tmp.2.1 e.m ⟨zG.re + t1G.re * (d1 + d2), zG.im + t1G.im * (d1 - d2)⟩
  let zC ← rd tmp.2.2 e.m
  let tC ← wr tmp.2.2 e.m ⟨zC.re + t1C.re * (d1 + d2), zC.im + t1C.im * (d1 - d2)⟩
  ok (tT, tG, tC)

/-- The first loop, alm_powspec_tools.cc:379-384. -/
noncomputable def init3 (aT aG aC : Alm ℂ) (l : ℕ) (d : A2) (m : ℕ) (tmp : List ℂ × List ℂ × List ℂ) : Res (List ℂ × List ℂ × List ℂ) := do
  let x ← d.get l ((m : ℤ) + l)
  let t ← aT.get l 0
  let tT ← wr tmp.1 m (t * x)
  let g ← aG.get l 0
  let tG ← wr tmp.2.1 m (g * x)
  let c ← aC.get l 0
  let tC ← wr tmp.2.2 m (c * x)
  ok (tT, tG, tC)

/-- The last loop, alm_powspec_tools.cc:412-417. -/
noncomputable def store3 (l : ℕ) (tmp : List ℂ × List ℂ × List ℂ) (expphi : List ℂ) (m : ℕ) (alm : Alm ℂ × Alm ℂ × Alm ℂ) :
    Res (Alm ℂ × Alm ℂ × Alm ℂ) := do
  let e ← rd expphi m
  let t ← rd tmp.1 m
  let aT ← alm.1.put l m (t * e)
  let g ← rd tmp.2.1 m
  let aG ← alm.2.1.put l m (g * e)
  let c ← rd tmp.2.2 m
  let aC ← alm.2.2.put l m (c * e)
  ok (aT, aG, aC)

/-- The statements for one degree, alm_powspec_tools.cc:379-417. -/
noncomputable def rotateL3 (alm : Alm ℂ × Alm ℂ × Alm ℂ) (l : ℕ) (exppsi expphi : List ℂ) (d : A2) (tr : List (ℕ × Ev))
    (tmp : List ℂ × List ℂ × List ℂ) : Res ((Alm ℂ × Alm ℂ × Alm ℂ) × List ℂ × List ℂ × List ℂ) := do
  let tmp ← forN (l + 1) (init3 alm.1 alm.2.1 alm.2.2 l d) tmp
  let tmp ← foldRes (fun tmp e => exec3 alm.1 alm.2.1 alm.2.2 l exppsi d tmp e.2) tmp tr
  let alm ← forN (l + 1) (store3 l tmp expphi) alm
  ok (alm, tmp)

/-- One iteration of the loop over degrees, alm_powspec_tools.cc:375-418. -/
noncomputable def rotateStep3 (x : Exec) (exppsi expphi : List ℂ) (l : ℕ)
    (r : Rec × (Alm ℂ × Alm ℂ × Alm ℂ) × List ℂ × List ℂ × List ℂ) : Res (Rec × (Alm ℂ × Alm ℂ × Alm ℂ) × List ℂ × List ℂ × List ℂ) := do
  let rec' ← r.1.omp x.sR
  let y ← rotateL3 r.2.1 l exppsi expphi rec'.d (x.sT l) r.2.2
  ok (rec', y)

/-- `rotate_alm` for temperature and polarisation, alm_powspec_tools.cc:355-419. -/
noncomputable def Exec.rotate3 (x : Exec) (aT aG aC : Alm ℂ) (psi theta phi : ℝ) : Res (Alm ℂ × Alm ℂ × Alm ℂ) :=
  if aT.lmax = aT.mmax then
    if conformable aG aT ∧ conformable aC aT then do
      let z := List.replicate (aT.lmax.toNat + 1) (0 : ℂ)
      let r ← forN (aT.lmax + 1).toNat (rotateStep3 x (expTab aT.lmax.toNat psi) (expTab aT.lmax.toNat phi))
        (Rec.new aT.lmax.toNat theta x.junk x.junk', (aT, aG, aC), z, z, z)
      ok r.2.1
    else Res.throw "rotate_alm: a_lm are not conformable"
  else Res.throw "rotate_alm: lmax must be equal to mmax"

/-- `rotate_alm` with a rotation matrix, alm_powspec_tools.cc:429-435: `a1, a2, a3` of `Extract_CPAC_Euler_Angles` are passed in
reverse order. -/
noncomputable def Exec.rotateMat (x : Exec) (alm : Alm ℂ) (mat : M3) : Res (Alm ℂ) :=
  let a := extractEuler mat
  x.rotate alm a.2.2 a.2.1 a.1

/-- The same for temperature and polarisation, alm_powspec_tools.cc:440-447. -/
noncomputable def Exec.rotateMat3 (x : Exec) (aT aG aC : Alm ℂ) (mat : M3) : Res (Alm ℂ × Alm ℂ × Alm ℂ) :=
  let a := extractEuler mat
  x.rotate3 aT aG aC a.2.2 a.2.1 a.1

/-! ## Three components are rotated like one -/

theorem forN_tri {A B C D : Type} (R : A → B → C → D → Prop) (fA : ℕ → A → Res A) (fB : ℕ → B → Res B) (fC : ℕ → C → Res C)
    (fD : ℕ → D → Res D) (step : ∀ i a b c d a' b' c', R a b c d → fA i a = ok a' → fB i b = ok b' → fC i c = ok c' →
      ∃ d', fD i d = ok d' ∧ R a' b' c' d') (n : ℕ) {a b c d a' b' c'} (h : R a b c d) (hA : forN n fA a = ok a')
    (hB : forN n fB b = ok b') (hC : forN n fC c = ok c') : ∃ d', forN n fD d = ok d' ∧ R a' b' c' d' := by
  induction n generalizing a' b' c' with
  | zero =>
    rw [forN_zero] at hA hB hC
    cases hA; cases hB; cases hC
    exact ⟨d, rfl, h⟩
  | succ n ih =>
    rw [forN_succ] at hA hB hC
    obtain ⟨a1, ha1, ha2⟩ := bind_eq_ok.mp hA
    obtain ⟨b1, hb1, hb2⟩ := bind_eq_ok.mp hB
    obtain ⟨c1, hc1, hc2⟩ := bind_eq_ok.mp hC
    obtain ⟨d1, hd1, hR⟩ := ih ha1 hb1 hc1
    obtain ⟨d2, hd2, hR2⟩ := step n _ _ _ _ _ _ _ hR ha2 hb2 hc2
    exact ⟨d2, by rw [forN_succ, hd1]; exact hd2, hR2⟩

theorem foldRes_tri {A B C D E : Type} (R : A → B → C → D → Prop) (fA : A → E → Res A) (fB : B → E → Res B) (fC : C → E → Res C)
    (fD : D → E → Res D) (step : ∀ i a b c d a' b' c', R a b c d → fA a i = ok a' → fB b i = ok b' → fC c i = ok c' →
      ∃ d', fD d i = ok d' ∧ R a' b' c' d') (l : List E) {a b c d a' b' c'} (h : R a b c d) (hA : foldRes fA a l = ok a')
    (hB : foldRes fB b l = ok b') (hC : foldRes fC c l = ok c') : ∃ d', foldRes fD d l = ok d' ∧ R a' b' c' d' := by
  induction l generalizing a b c d with
  | nil =>
    rw [foldRes_nil] at hA hB hC
    cases hA; cases hB; cases hC
    exact ⟨d, rfl, h⟩
  | cons e l ih =>
    rw [foldRes_cons] at hA hB hC
    obtain ⟨a1, ha1, ha2⟩ := bind_eq_ok.mp hA
    obtain ⟨b1, hb1, hb2⟩ := bind_eq_ok.mp hB
    obtain ⟨c1, hc1, hc2⟩ := bind_eq_ok.mp hC
    obtain ⟨d1, hd1, hR⟩ := step e _ _ _ _ _ _ _ h ha1 hb1 hc1
    obtain ⟨d2, hd2, hR2⟩ := ih hR ha2 hb2 hc2
    exact ⟨d2, by rw [foldRes_cons, hd1]; exact hd2, hR2⟩

/-- The three components are those of the triple. -/
def Tri {α : Type} (a b c : α) (d : α × α × α) : Prop := d = (a, b, c)

theorem exec_tri {aT aG aC : Alm ℂ} {l : ℕ} {exppsi : List ℂ} {d : A2} {tT tG tC tT' tG' tC' : List ℂ} {e : Ev}
    (hT : exec aT l exppsi d tT e = ok tT') (hG : exec aG l exppsi d tG e = ok tG') (hC : exec aC l exppsi d tC e = ok tC') :
    exec3 aT aG aC l exppsi d (tT, tG, tC) e = ok (tT', tG', tC') := by
  unfold exec at hT hG hC
  obtain ⟨t, h1, hT⟩ := bind_eq_ok.mp hT
  obtain ⟨x, h2, hT⟩ := bind_eq_ok.mp hT
  obtain ⟨u, h3, hT⟩ := bind_eq_ok.mp hT
  obtain ⟨v, h4, hT⟩ := bind_eq_ok.mp hT
  obtain ⟨zT, h5, hT⟩ := bind_eq_ok.mp hT
  obtain ⟨g, i1, hG⟩ := bind_eq_ok.mp hG
  rw [h2] at hG; simp only [ok_bind] at hG
  rw [h3] at hG; simp only [ok_bind] at hG
  rw [h4] at hG; simp only [ok_bind] at hG
  obtain ⟨zG, i5, hG⟩ := bind_eq_ok.mp hG
  obtain ⟨c, j1, hC⟩ := bind_eq_ok.mp hC
  rw [h2] at hC; simp only [ok_bind] at hC
  rw [h3] at hC; simp only [ok_bind] at hC
  rw [h4] at hC; simp only [ok_bind] at hC
  obtain ⟨zC, j5, hC⟩ := bind_eq_ok.mp hC
  unfold exec3
  rw [h2]; simp only [ok_bind]
  rw [h1]; simp only [ok_bind]
  rw [i1]; simp only [ok_bind]
  rw [j1]; simp only [ok_bind]
  rw [h3]; simp only [ok_bind]
  rw [h4]; simp only [ok_bind]
  rw [h5]; simp only [ok_bind]
  rw [hT]; simp only [ok_bind]
  rw [i5]; simp only [ok_bind]
  rw [hG]; simp only [ok_bind]
  rw [j5]; simp only [ok_bind]
  rw [hC]; simp only [ok_bind]

theorem rotateL_tri {aT aG aC bT bG bC : Alm ℂ} {l : ℕ} {exppsi expphi : List ℂ} {d : A2} {tr : List (ℕ × Ev)} {tT tG tC sT sG sC : List ℂ}
    (hT : rotateL aT l exppsi expphi d tr tT = ok (bT, sT)) (hG : rotateL aG l exppsi expphi d tr tG = ok (bG, sG))
    (hC : rotateL aC l exppsi expphi d tr tC = ok (bC, sC)) :
    rotateL3 (aT, aG, aC) l exppsi expphi d tr (tT, tG, tC) = ok ((bT, bG, bC), sT, sG, sC) := by
  unfold rotateL at hT hG hC
  obtain ⟨t1, h1, hT⟩ := bind_eq_ok.mp hT
  obtain ⟨t2, h2, hT⟩ := bind_eq_ok.mp hT
  obtain ⟨t3, h3, hT⟩ := bind_eq_ok.mp hT
  obtain ⟨g1, i1, hG⟩ := bind_eq_ok.mp hG
  obtain ⟨g2, i2, hG⟩ := bind_eq_ok.mp hG
  obtain ⟨g3, i3, hG⟩ := bind_eq_ok.mp hG
  obtain ⟨c1, j1, hC⟩ := bind_eq_ok.mp hC
  obtain ⟨c2, j2, hC⟩ := bind_eq_ok.mp hC
  obtain ⟨c3, j3, hC⟩ := bind_eq_ok.mp hC
  cases hT; cases hG; cases hC
  unfold rotateL3
  obtain ⟨e1, k1, r1⟩ := forN_tri Tri _ _ _ (init3 aT aG aC l d) (by
    rintro m a b c dd a' b' c' rfl ha hb hc
    obtain ⟨t, p1, ha⟩ := bind_eq_ok.mp ha
    obtain ⟨x, p2, ha⟩ := bind_eq_ok.mp ha
    obtain ⟨g, q1, hb⟩ := bind_eq_ok.mp hb
    rw [p2] at hb; simp only [ok_bind] at hb
    obtain ⟨y, r1, hc⟩ := bind_eq_ok.mp hc
    rw [p2] at hc; simp only [ok_bind] at hc
    refine ⟨_, ?_, rfl⟩
    unfold init3
    rw [add_comm (m : ℤ), p2]; simp only [ok_bind]
    rw [p1]; simp only [ok_bind]
    rw [ha]; simp only [ok_bind]
    rw [q1]; simp only [ok_bind]
    rw [hb]; simp only [ok_bind]
    rw [r1]; simp only [ok_bind]
    rw [hc]; simp only [ok_bind]) (l + 1) (d := (tT, tG, tC)) rfl h1 i1 j1
  unfold Tri at r1
  subst r1
  obtain ⟨e2, k2, r2⟩ := foldRes_tri Tri _ _ _ (fun tmp e => exec3 aT aG aC l exppsi d tmp e.2) (by
    rintro ev a b c dd a' b' c' rfl ha hb hc
    exact ⟨_, exec_tri ha hb hc, rfl⟩) tr (d := (t1, g1, c1)) rfl h2 i2 j2
  unfold Tri at r2
  subst r2
  obtain ⟨e3, k3, r3⟩ := forN_tri Tri _ _ _ (store3 l (sT, sG, sC) expphi) (by
    rintro m a b c dd a' b' c' rfl ha hb hc
    obtain ⟨t, p1, ha⟩ := bind_eq_ok.mp ha
    obtain ⟨x, p2, ha⟩ := bind_eq_ok.mp ha
    obtain ⟨g, q1, hb⟩ := bind_eq_ok.mp hb
    rw [p2] at hb; simp only [ok_bind] at hb
    obtain ⟨y, r1, hc⟩ := bind_eq_ok.mp hc
    rw [p2] at hc; simp only [ok_bind] at hc
    refine ⟨_, ?_, rfl⟩
    unfold store3
    rw [p2]; simp only [ok_bind]
    rw [p1]; simp only [ok_bind]
    rw [ha]; simp only [ok_bind]
    rw [q1]; simp only [ok_bind]
    rw [hb]; simp only [ok_bind]
    rw [r1]; simp only [ok_bind]
    rw [hc]; simp only [ok_bind]) (l + 1) (d := (aT, aG, aC)) rfl h3 i3 j3
  unfold Tri at r3
  subst r3
  dsimp only
  rw [k1]; simp only [ok_bind]
  rw [k2]; simp only [ok_bind]
  rw [k3]; simp only [ok_bind]

/-- If the scalar `rotate_alm` rotates each component, the three-component one returns the three results. -/
theorem rotate3_eq (x : Exec) {aT aG aC bT bG bC : Alm ℂ} (h : aT.lmax = aT.mmax) (hG : conformable aG aT) (hC : conformable aC aT)
    {psi theta phi : ℝ} (rT : x.rotate aT psi theta phi = ok bT) (rG : x.rotate aG psi theta phi = ok bG)
    (rC : x.rotate aC psi theta phi = ok bC) : x.rotate3 aT aG aC psi theta phi = ok (bT, bG, bC) := by
  unfold Exec.rotate rotateAlm at rT rG rC
  rw [if_pos h] at rT
  rw [if_pos (by rw [hG.1, hG.2, h]), hG.1] at rG
  rw [if_pos (by rw [hC.1, hC.2, h]), hC.1] at rC
  obtain ⟨t, ht, rT⟩ := bind_eq_ok.mp rT
  obtain ⟨g, hg, rG⟩ := bind_eq_ok.mp rG
  obtain ⟨c, hc, rC⟩ := bind_eq_ok.mp rC
  unfold Exec.rotate3
  rw [if_pos h, if_pos ⟨hG, hC⟩]
  dsimp only
  let F : ℕ → Rec × Alm ℂ × List ℂ → Res (Rec × Alm ℂ × List ℂ) := fun l r => do
    let rec' ← r.1.omp x.sR
    let y ← rotateL r.2.1 l (expTab aT.lmax.toNat psi) (expTab aT.lmax.toNat phi) rec'.d (x.sT l) r.2.2
    ok (rec', y)
  obtain ⟨e, he, r1, -, -, r2, r3⟩ := forN_tri (fun (a b c : Rec × Alm ℂ × List ℂ) (d : Rec × (Alm ℂ × Alm ℂ × Alm ℂ) × List ℂ × List ℂ × List ℂ) =>
      d.1 = a.1 ∧ b.1 = a.1 ∧ c.1 = a.1 ∧ d.2.1 = (a.2.1, b.2.1, c.2.1) ∧ d.2.2 = (a.2.2, b.2.2, c.2.2)) F F F
    (rotateStep3 x (expTab aT.lmax.toNat psi) (expTab aT.lmax.toNat phi)) (by
      rintro l ⟨ra, aa, ta⟩ ⟨rb, ab, tb⟩ ⟨rc, ac, tc⟩ ⟨rd', ad, td⟩ a' b' c' ⟨e1, e2, e3, e4, e5⟩ ha hb hc
      dsimp only at e1 e2 e3 e4 e5
      subst e1 e2 e3 e4 e5
      dsimp only [F] at ha hb hc
      obtain ⟨r', p1, ha⟩ := bind_eq_ok.mp ha
      obtain ⟨⟨y1, y2⟩, p2, ha⟩ := bind_eq_ok.mp ha
      rw [p1] at hb hc; simp only [ok_bind] at hb hc
      obtain ⟨⟨z1, z2⟩, q2, hb⟩ := bind_eq_ok.mp hb
      obtain ⟨⟨w1, w2⟩, s2, hc⟩ := bind_eq_ok.mp hc
      cases ha; cases hb; cases hc
      refine ⟨(r', (y1, z1, w1), y2, z2, w2), ?_, rfl, rfl, rfl, rfl, rfl⟩
      unfold rotateStep3
      dsimp only
      rw [p1]; simp only [ok_bind]
      rw [rotateL_tri p2 q2 s2]; simp only [ok_bind]) (aT.lmax + 1).toNat (d := (Rec.new aT.lmax.toNat theta x.junk x.junk', (aT, aG, aC), _, _, _))
    (by exact ⟨rfl, rfl, rfl, rfl, rfl⟩) ht hg hc
  rw [he]; simp only [ok_bind]
  cases rT; cases rG; cases rC
  rw [r2]

end Verif.Risbo
