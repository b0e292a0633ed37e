import Verif.Tod.Convolve

/-!
# The local stage of `convolve`

`middle` (sort, split, interpolate, restore) acts on the received rows as a row-wise map.
-/

namespace Verif.Tod
open Verif Res Spmd

variable {F : Type} [Arith F]

/-- sample value for a folded colatitude and given hemisphere -/
def specF (e : Env F) (south : Bool) (phi th psi : F) : Res F := do
  let it0 ← betaToItheta e.cfg th
  sampleValue e.cfg (fun i => e.ring south i.toNat) ⟨phi, th, psi, Arith.ofInt 0, Arith.ofInt 0⟩ it0 e.cfg.npoints

theorem sampleSpec_eq (e : Env F) (phi theta psi : F) :
    sampleSpec e phi theta psi = specF e (!(Arith.lt theta Arith.halfpi)) phi (foldGt theta) psi := rfl

/-- value or a default -/
def valF (e : Env F) (south : Bool) (phi th psi : F) : F :=
  match specF e south phi th psi with
  | ok v => v
  | _ => Arith.ofInt 0

/-- the value of a sample (default if undefined) -/
def val (e : Env F) (phi theta psi : F) : F :=
  valF e (!(Arith.lt theta Arith.halfpi)) phi (foldGt theta) psi

theorem val_of_spec {e : Env F} {phi theta psi v : F} (h : sampleSpec e phi theta psi = ok v) :
    val e phi theta psi = v := by
  unfold val valF
  rw [← sampleSpec_eq, h]

/-- the row with its value -/
def conv (e : Env F) (r : Row F) : Row F := { r with sig := val e r.phi r.theta r.psi }

theorem sampleValue_congr (c : Cfg) (ring : Int → List F) (r r' : Row F) (it0 : Int) (k : Nat)
    (h1 : r.phi = r'.phi) (h2 : r.theta = r'.theta) (h3 : r.psi = r'.psi) :
    sampleValue c ring r it0 k = sampleValue c ring r' it0 k := by
  unfold sampleValue accum
  rw [h1, h2, h3]

/-- prefix of a list along which `P` is downward closed -/
theorem split_prefix {β : Type} (P : β → Bool) (l : List β)
    (h : l.Pairwise (fun a b => P b = true → P a = true)) :
    (∀ x ∈ l.take (l.filter P).length, P x = true) ∧ (∀ x ∈ l.drop (l.filter P).length, P x = false) := by
  induction l with
  | nil => simp
  | cons a l ih =>
    rw [List.pairwise_cons] at h
    obtain ⟨h1, h2⟩ := ih h.2
    by_cases ha : P a = true
    · rw [List.filter_cons_of_pos ha]
      simp only [List.length_cons, List.take_succ_cons, List.drop_succ_cons, List.mem_cons]
      refine ⟨?_, h2⟩
      rintro x (rfl | hx)
      · exact ha
      · exact h1 x hx
    · have hnil : l.filter P = [] := by
        rw [List.filter_eq_nil_iff]
        intro b hb hPb
        exact ha (h.1 b hb hPb)
      rw [List.filter_cons_of_neg ha, hnil]
      simp only [List.length_nil, List.take_zero, List.drop_zero, List.mem_cons]
      refine ⟨by simp, ?_⟩
      rintro x (rfl | hx)
      · simpa using ha
      · by_contra hx'
        exact ha (h.1 x hx (by simpa using hx'))

/-- folded row -/
def foldRow (r : Row F) : Row F := { r with theta := foldGt r.theta }

theorem sort_rows {e : Env F} {Ang : F → Prop} (hL : Laws e Ang) (rows : List (Row F))
    (h : ∀ r ∈ rows, Ang r.theta) :
    ∃ ys, hpsortTheta e.srt rows = ok ys ∧ ys.Perm rows ∧
      ys.Pairwise (fun p q => Arith.lt q.theta p.theta = false) := by
  have hk : ∀ p ∈ rows.zipIdx.map (fun p => (p.1.theta, p.2)), Ang p.1 := by
    intro p hp
    obtain ⟨⟨a, b⟩, hq, rfl⟩ := List.mem_map.mp hp
    exact h a (List.mem_of_getElem? (List.mem_zipIdx_iff_getElem?.mp hq))
  obtain ⟨h1, h2⟩ := hL.sort _ hk
  exact hpsortTheta_ok rows h1 h2

/-- `itheta0SetUp` on sorted, folded rows. -/
theorem setUp_ok {e : Env F} {Ang : F → Prop} (hL : Laws e Ang) (rows : List (Row F)) (hne : rows ≠ [])
    (hA : ∀ r ∈ rows, Ang r.theta ∧ Arith.lt Arith.halfpi r.theta = false)
    (hs : rows.Pairwise (fun p q => Arith.lt q.theta p.theta = false)) :
    ∃ su, setUp e.cfg rows = ok su ∧ SetUpOK e.cfg su ∧ su.it.length = rows.length ∧
      (∀ i (h : i < rows.length), betaToItheta e.cfg rows[i].theta = ok (su.it.getD i 0)) ∧
      0 ≤ su.off ∧ 0 ≤ su.n ∧ su.off + su.n ≤ e.cfg.ntheta := by
  classical
  have hex : ∀ r : Row F, ∃ i, r ∈ rows → betaToItheta e.cfg r.theta = ok i := by
    intro r
    by_cases h : r ∈ rows
    · obtain ⟨i, hi⟩ := hL.itheta_ok r.theta (hA r h).1
      exact ⟨i, fun _ => hi⟩
    · exact ⟨0, fun h' => absurd h' h⟩
  choose f hf using hex
  have hlen : 0 < rows.length := List.length_pos_of_ne_nil hne
  have hget : ∀ i (h : i < rows.length), (rows.map f).getD i 0 = f rows[i] := by
    intro i h; simp [List.getD_eq_getElem?_getD, h]
  have hrng : ∀ i (h : i < rows.length), 0 ≤ (rows.map f).getD i 0 ∧
      (rows.map f).getD i 0 + e.cfg.npoints ≤ e.cfg.ntheta := by
    intro i h
    rw [hget i h]
    exact betaToItheta_range (hf _ (List.getElem_mem h))
  have hdesc : ∀ i j, i ≤ j → j < rows.length → (rows.map f).getD j 0 ≤ (rows.map f).getD i 0 := by
    intro i j hij hj
    by_cases hij' : i = j
    · subst hij'; exact le_rfl
    · rw [hget j hj, hget i (by omega)]
      have hp := List.pairwise_iff_getElem.mp hs i j (by omega) hj (by omega)
      have m1 := List.getElem_mem (show i < rows.length by omega)
      have m2 := List.getElem_mem hj
      exact hL.itheta_anti _ _ (hA _ m1).1 (hA _ m2).1 (hA _ m1).2 (hA _ m2).2 hp _ _ (hf _ m1) (hf _ m2)
  have h0 := hrng 0 hlen
  have hl := hrng (rows.length - 1) (by omega)
  have hd := hdesc 0 (rows.length - 1) (by omega) (by omega)
  refine ⟨⟨rows.map f, (rows.map f).getD (rows.length - 1) 0,
      (rows.map f).getD 0 0 - (rows.map f).getD (rows.length - 1) 0 + e.cfg.npoints⟩, ?_, ?_, by simp, ?_, ?_, ?_, ?_⟩
  · unfold setUp
    rw [mapM_ok (g := f) (fun r hr => hf r hr)]
    simp only [ok_bind]
    have e0 : rd (rows.map f) 0 = ok ((rows.map f).getD 0 0) := by
      have := rd_nat (xs := rows.map f) (i := 0) (by simpa using hlen)
      rw [hget 0 hlen]
      simpa using this
    have e1 : rd (rows.map f) ((rows.length : Int) - 1) = ok ((rows.map f).getD (rows.length - 1) 0) := by
      rw [show (rows.length : Int) - 1 = ((rows.length - 1 : Nat) : Int) by omega,
        rd_nat (by rw [List.length_map]; omega), hget _ (by omega)]; simp
    rw [e0, e1]
    simp only [ok_bind]
    rw [if_neg (by omega)]
  · exact ⟨by simpa using hne, by intro i j h1 h2; exact hdesc i j h1 (by simpa using h2), by simp, rfl⟩
  · intro i h
    rw [hget i h]
    exact hf _ (List.getElem_mem h)
  · exact hl.1
  · simp only; omega
  · simp only; omega

theorem mem_of_perm_take {rows ys : List (Row F)} {k : Nat} (h : ys.Perm ((rows.take k).map foldRow)) {y : Row F}
    (hy : y ∈ ys) : ∃ i, ∃ (hi : i < rows.length), i < k ∧ y = foldRow rows[i] := by
  have := h.mem_iff.mp hy
  obtain ⟨r, hr, rfl⟩ := List.mem_map.mp this
  obtain ⟨i, hi, rfl⟩ := List.getElem_of_mem hr
  rw [List.length_take] at hi
  exact ⟨i, by omega, by omega, by rw [List.getElem_take]⟩

theorem mem_of_perm_drop {rows ys : List (Row F)} {k : Nat} (h : ys.Perm ((rows.drop k).map foldRow)) {y : Row F}
    (hy : y ∈ ys) : ∃ i, ∃ (hi : i < rows.length), k ≤ i ∧ y = foldRow rows[i] := by
  have := h.mem_iff.mp hy
  obtain ⟨r, hr, rfl⟩ := List.mem_map.mp this
  obtain ⟨i, hi, rfl⟩ := List.getElem_of_mem hr
  rw [List.length_drop] at hi
  exact ⟨k + i, by omega, by omega, by rw [List.getElem_drop]⟩

/-- One hemisphere: set-up, window and interpolation. -/
structure Hemi (e : Env F) (south : Bool) (part : List (Row F)) (su : SetUp) : Prop where
  run : (if part.length ≠ 0 then setUp e.cfg part else ok ⟨[], 0, 0⟩) = ok su
  off0 : 0 ≤ su.off
  n0 : 0 ≤ su.n
  win : su.off + su.n ≤ e.cfg.ntheta
  interp : interpolate e.cfg e.sched part su
      ((List.range su.n.toNat).map (fun p => e.ring south (su.off.toNat + p))) =
    ok (part.map (fun r => valF e south r.phi r.theta r.psi))

theorem hemi_ok {e : Env F} {Ang : F → Prop} (hL : Laws e Ang) (south : Bool) (part : List (Row F))
    (hA : ∀ r ∈ part, Ang r.theta ∧ Arith.lt Arith.halfpi r.theta = false)
    (hs : part.Pairwise (fun p q => Arith.lt q.theta p.theta = false))
    (hv : ∀ r ∈ part, ∃ v, specF e south r.phi r.theta r.psi = ok v) :
    ∃ su, Hemi e south part su := by
  by_cases hne : part = []
  · subst hne
    exact ⟨⟨[], 0, 0⟩, rfl, by simp, by simp, by simp, rfl⟩
  · obtain ⟨su, h1, h2, h3, h4, h5, h6, h7⟩ := setUp_ok hL part hne hA hs
    refine ⟨su, ?_, h5, h6, h7, ?_⟩
    · rw [if_pos (by have := List.length_pos_of_ne_nil hne; omega)]; exact h1
    · have := interpolate_spec (c := e.cfg) (sched := e.sched) hL.sched (rows := part) h2 h3
        (rings := (List.range su.n.toNat).map (fun p => e.ring south (su.off.toNat + p)))
        (ring := fun i => e.ring south i.toNat) (by simp; omega)
        (by
          intro jj hjj
          have hjj' : jj < su.n.toNat := by simpa using hjj
          simp only [List.getElem?_map, List.getElem?_range hjj', Option.map_some, Option.some.injEq]
          congr 1; omega)
        (v := fun ii => if h : ii < part.length then valF e south part[ii].phi part[ii].theta part[ii].psi
          else Arith.ofInt 0)
        (by
          intro ii hi
          obtain ⟨v, hv⟩ := hv part[ii] (List.getElem_mem hi)
          simp only [hi, dif_pos]
          unfold valF
          rw [hv]
          unfold specF at hv
          rw [h4 ii hi, ok_bind] at hv
          rw [← hv]
          exact sampleValue_congr _ _ _ _ _ _ rfl rfl rfl)
      rw [this]
      congr 1
      apply List.ext_getElem (by simp)
      intro i h1 h2
      have hi : i < part.length := by simpa using h1
      simp [hi]

theorem tag_exists {N : Nat} (hT : TagLaw F N) : ∃ tag : Row F → Nat, ∀ (r : Row F) (i : Nat), i < N →
    r.sig = Arith.ofInt i → tag r = i ∧ readTag r = ok (i : Int) := by
  refine ⟨fun r => match readTag r with | ok i => i.toNat | _ => 0, ?_⟩
  intro r i hi hr
  have := readTag_ofInt hT hi hr
  exact ⟨by simp [this], this⟩

theorem tagSig_get (rows : List (Row F)) (i : Nat) (h : i < (tagSig rows).length) :
    (tagSig rows)[i].sig = Arith.ofInt i := by
  simp [tagSig]

/-- Facts about one rank in `todgen` on sorted rows. -/
theorem todgen_parts {e : Env F} {Ang : F → Prop} (hL : Laws e Ang) {n : Nat}
    {N : Nat} (hT : TagLaw F N) (Y : Nat → List (Row F)) (hN : ∀ r < n, (Y r).length ≤ N)
    (hA : ∀ r < n, ∀ y ∈ Y r, Ang y.theta)
    (hs : ∀ r < n, (Y r).Pairwise (fun p q => Arith.lt q.theta p.theta = false))
    (hv : ∀ r < n, ∀ y ∈ Y r, ∃ v, sampleSpec e y.phi y.theta y.psi = ok v)
    (k : Nat → Nat) (hk : ∀ r < n, k r = ((Y r).filter (fun y => Arith.lt y.theta Arith.halfpi)).length) :
    ∀ r, ∃ (No So : List (Row F)) (su1 su2 : SetUp) (out1 out2 : List (Row F)), r < n →
      (if k r ≠ 0 then arrFilling e.srt (k r) (tagSig (Y r)) 0 else ok []) = ok No ∧
      (if (Y r).length - k r ≠ 0 then arrFilling e.srt ((Y r).length - k r) (tagSig (Y r)) (k r) else ok []) = ok So ∧
      Hemi e false No su1 ∧ Hemi e true So su2 ∧
      scatterSig (tagSig (Y r)) (No.zip (No.map (fun r => valF e false r.phi r.theta r.psi))) = ok out1 ∧
      scatterSig out1 (So.zip (So.map (fun r => valF e true r.phi r.theta r.psi))) = ok out2 ∧
      out2 = (Y r).map (conv e) ∧
      No.Perm (((tagSig (Y r)).take (k r)).map foldRow) ∧ So.Perm (((tagSig (Y r)).drop (k r)).map foldRow) ∧
      No.Pairwise (fun p q => Arith.lt q.theta p.theta = false) ∧ So.Pairwise (fun p q => Arith.lt q.theta p.theta = false) := by
  obtain ⟨tag, htag⟩ := tag_exists (F := F) hT
  intro r
  by_cases hr : r < n
  swap
  · exact ⟨[], [], ⟨[], 0, 0⟩, ⟨[], 0, 0⟩, [], [], fun h => absurd h hr⟩
  set X := tagSig (Y r) with hX
  have hXl : X.length = (Y r).length := by simp [hX]
  have hXth : ∀ i (h : i < X.length), X[i].theta = ((Y r)[i]'(by omega)).theta ∧
      X[i].phi = ((Y r)[i]'(by omega)).phi ∧ X[i].psi = ((Y r)[i]'(by omega)).psi ∧
      X[i].time = ((Y r)[i]'(by omega)).time := by
    intro i h; simp [hX, tagSig]
  have hXsig : ∀ i (h : i < X.length), X[i].sig = Arith.ofInt i := fun i h => tagSig_get (Y r) i h
  have hXA : ∀ x ∈ X, Ang x.theta := by
    intro x hx
    obtain ⟨i, hi, rfl⟩ := List.getElem_of_mem hx
    rw [(hXth i hi).1]
    exact hA r hr _ (List.getElem_mem _)
  have hkl : k r ≤ X.length := by rw [hk r hr, hXl]; exact List.length_filter_le _ _
  -- split
  have hpw : (Y r).Pairwise (fun a b => Arith.lt b.theta Arith.halfpi = true → Arith.lt a.theta Arith.halfpi = true) := by
    refine (hs r hr).imp_of_mem ?_
    intro a b ha hb hab hb'
    rcases hL.cotrans _ _ a.theta (hA r hr b hb) hL.halfpi (hA r hr a ha) hb' with h | h
    · rw [hab] at h; cases h
    · exact h
  obtain ⟨sp1, sp2⟩ := split_prefix (fun y : Row F => Arith.lt y.theta Arith.halfpi) (Y r) hpw
  rw [← hk r hr] at sp1 sp2
  have hnorth : ∀ i (h : i < X.length), i < k r → Arith.lt X[i].theta Arith.halfpi = true := by
    intro i h hik
    rw [(hXth i h).1]
    apply sp1
    rw [List.mem_iff_getElem]
    exact ⟨i, by rw [List.length_take]; omega, by rw [List.getElem_take]⟩
  have hsouth : ∀ i (h : i < X.length), k r ≤ i → Arith.lt X[i].theta Arith.halfpi = false := by
    intro i h hik
    rw [(hXth i h).1]
    apply sp2
    rw [List.mem_iff_getElem]
    refine ⟨i - k r, by rw [List.length_drop]; omega, ?_⟩
    rw [List.getElem_drop]
    congr 1; omega
  -- north and south parts
  have hpart : ∀ (off cnt : Nat), off + cnt ≤ X.length →
      ∃ P, (if cnt ≠ 0 then arrFilling e.srt cnt X off else ok []) = ok P ∧
        P.Perm (((X.drop off).take cnt).map foldRow) ∧
        P.Pairwise (fun p q => Arith.lt q.theta p.theta = false) := by
    intro off cnt hoc
    by_cases h0 : cnt = 0
    · subst h0; exact ⟨[], by simp, by simp, by simp⟩
    · rw [if_pos h0]
      unfold arrFilling sliceChk
      rw [if_pos hoc, ok_bind]
      apply sort_rows hL
      intro q hq
      obtain ⟨x, hx, rfl⟩ := List.mem_map.mp hq
      exact hL.fold _ (hXA x (List.mem_of_mem_drop (List.mem_of_mem_take hx)))
  obtain ⟨No, n1, n2, n3⟩ := hpart 0 (k r) (by omega)
  obtain ⟨So, s1, s2, s3⟩ := hpart (k r) ((Y r).length - k r) (by omega)
  rw [List.drop_zero] at n2
  rw [List.take_of_length_le (by rw [List.length_drop]; omega)] at s2
  have memN := fun y (hy : y ∈ No) => mem_of_perm_take n2 hy
  have memS := fun y (hy : y ∈ So) => mem_of_perm_drop s2 hy
  have hAng : ∀ i (h : i < X.length), Ang (foldRow X[i]).theta ∧ Arith.lt Arith.halfpi (foldRow X[i]).theta = false := by
    intro i h
    have := hXA _ (List.getElem_mem h)
    exact ⟨hL.fold _ this, hL.fold_le _ this⟩
  have hspec : ∀ i (h : i < X.length), ∃ v, specF e (!(Arith.lt X[i].theta Arith.halfpi)) X[i].phi (foldGt X[i].theta) X[i].psi = ok v := by
    intro i h
    obtain ⟨v, hv'⟩ := hv r hr _ (List.getElem_mem (show i < (Y r).length by omega))
    rw [sampleSpec_eq] at hv'
    obtain ⟨t1, t2, t3, _⟩ := hXth i h
    rw [t1, t2, t3]
    exact ⟨v, hv'⟩
  obtain ⟨su1, hsu1⟩ := hemi_ok hL false No
    (by intro y hy; obtain ⟨i, hi, _, rfl⟩ := memN y hy; exact hAng i hi) n3
    (by
      intro y hy
      obtain ⟨i, hi, hik, rfl⟩ := memN y hy
      have := hspec i hi
      rw [hnorth i hi hik] at this
      exact this)
  obtain ⟨su2, hsu2⟩ := hemi_ok hL true So
    (by intro y hy; obtain ⟨i, hi, _, rfl⟩ := memS y hy; exact hAng i hi) s3
    (by
      intro y hy
      obtain ⟨i, hi, hik, rfl⟩ := memS y hy
      have := hspec i hi
      rw [hsouth i hi hik] at this
      exact this)
  -- tags
  have htg : ∀ i (h : i < X.length), tag (foldRow X[i]) = i ∧ readTag (foldRow X[i]) = ok (i : Int) := by
    intro i h
    exact htag _ i (by have := hN r hr; omega) (hXsig i h)
  have hzip : ∀ (l : List (Row F)) (g : Row F → F), l.zip (l.map g) = l.map (fun x => (x, g x)) := by
    intro l g; rw [List.zip_map_right, List.zip_eq_zipWith, List.zipWith_self, List.map_map]; rfl
  have hmaptag : X.map (fun x => tag (foldRow x)) = List.range X.length := by
    apply List.ext_getElem (by simp)
    intro i h1 h2
    simp only [List.getElem_map, List.getElem_range]
    exact (htg i (by simpa using h1)).1
  obtain ⟨out1, o1, o2, o3, o4⟩ := scatterSig_spec (tag := tag)
    (No.zip (No.map (fun r => valF e false r.phi r.theta r.psi))) X
    (by
      intro p hp
      rw [hzip] at hp
      obtain ⟨y, hy, rfl⟩ := List.mem_map.mp hp
      obtain ⟨i, hi, hik, rfl⟩ := memN y hy
      simp only
      rw [(htg i hi).1]
      exact ⟨(htg i hi).2, hi⟩)
    (by
      rw [hzip, List.map_map]
      have : (No.map tag).Perm (((X.take (k r)).map foldRow).map tag) := n2.map tag
      rw [show ((fun p : Row F × F => tag p.1) ∘ fun x => (x, valF e false x.phi x.theta x.psi)) = tag from rfl,
        this.nodup_iff, List.map_map, show (tag ∘ foldRow) = (fun x : Row F => tag (foldRow x)) from rfl,
        List.map_take, hmaptag]
      exact List.nodup_range.sublist (List.take_sublist _ _))
  obtain ⟨out2, p1, p2, p3, p4⟩ := scatterSig_spec (tag := tag)
    (So.zip (So.map (fun r => valF e true r.phi r.theta r.psi))) out1
    (by
      intro p hp
      rw [hzip] at hp
      obtain ⟨y, hy, rfl⟩ := List.mem_map.mp hp
      obtain ⟨i, hi, hik, rfl⟩ := memS y hy
      simp only
      rw [(htg i hi).1, o2]
      exact ⟨(htg i hi).2, hi⟩)
    (by
      rw [hzip, List.map_map]
      have : (So.map tag).Perm (((X.drop (k r)).map foldRow).map tag) := s2.map tag
      rw [show ((fun p : Row F × F => tag p.1) ∘ fun x => (x, valF e true x.phi x.theta x.psi)) = tag from rfl,
        this.nodup_iff, List.map_map, show (tag ∘ foldRow) = (fun x : Row F => tag (foldRow x)) from rfl,
        List.map_drop, hmaptag]
      exact List.nodup_range.sublist (List.drop_sublist _ _))
  refine ⟨No, So, su1, su2, out1, out2, fun _ => ⟨n1, s1, hsu1, hsu2, o1, p1, ?_, n2, s2, n3, s3⟩⟩
  -- final value
  have htagsN : ∀ j, j ∈ (No.zip (No.map (fun r => valF e false r.phi r.theta r.psi))).map (fun p => tag p.1) → j < k r := by
    intro j hj
    obtain ⟨p, hp, rfl⟩ := List.mem_map.mp hj
    rw [hzip] at hp
    obtain ⟨y, hy, rfl⟩ := List.mem_map.mp hp
    obtain ⟨i, hi, hik, rfl⟩ := memN y hy
    simp only
    rw [(htg i hi).1]; exact hik
  have htagsS : ∀ j, j ∈ (So.zip (So.map (fun r => valF e true r.phi r.theta r.psi))).map (fun p => tag p.1) → k r ≤ j := by
    intro j hj
    obtain ⟨p, hp, rfl⟩ := List.mem_map.mp hj
    rw [hzip] at hp
    obtain ⟨y, hy, rfl⟩ := List.mem_map.mp hp
    obtain ⟨i, hi, hik, rfl⟩ := memS y hy
    simp only
    rw [(htg i hi).1]; exact hik
  apply List.ext_getElem?
  intro i
  by_cases hi : i < X.length
  · have hiY : i < (Y r).length := by omega
    obtain ⟨t1, t2, t3, t4⟩ := hXth i hi
    have hYi : ((Y r).map (conv e))[i]? = some (conv e (Y r)[i]) := by simp [hiY]
    rw [hYi]
    by_cases hik : i < k r
    · rw [p4 i (fun h => by have := htagsS i h; omega)]
      have hm : foldRow X[i] ∈ No := n2.mem_iff.mpr (List.mem_map.mpr ⟨X[i], by
        rw [List.mem_iff_getElem]
        exact ⟨i, by rw [List.length_take]; omega, by rw [List.getElem_take]⟩, rfl⟩)
      have := o3 (foldRow X[i], valF e false (foldRow X[i]).phi (foldRow X[i]).theta (foldRow X[i]).psi)
        (by rw [hzip]; exact List.mem_map.mpr ⟨_, hm, rfl⟩) X[i]
        (by simp only; rw [(htg i hi).1]; exact List.getElem?_eq_getElem hi)
      simp only [(htg i hi).1] at this
      rw [this]
      congr 1
      unfold conv val
      rw [← t1, hnorth i hi hik]
      ext <;> simp [foldRow, t1, t2, t3, t4]
    · have hm : foldRow X[i] ∈ So := s2.mem_iff.mpr (List.mem_map.mpr ⟨X[i], by
        rw [List.mem_iff_getElem]
        refine ⟨i - k r, by rw [List.length_drop]; omega, ?_⟩
        rw [List.getElem_drop]
        congr 1; omega, rfl⟩)
      have := p3 (foldRow X[i], valF e true (foldRow X[i]).phi (foldRow X[i]).theta (foldRow X[i]).psi)
        (by rw [hzip]; exact List.mem_map.mpr ⟨_, hm, rfl⟩) X[i]
        (by
          simp only
          rw [(htg i hi).1, o4 i (fun h => by have := htagsN i h; omega)]
          exact List.getElem?_eq_getElem hi)
      simp only [(htg i hi).1] at this
      rw [this]
      congr 1
      unfold conv val
      rw [← t1, hsouth i hi (by omega)]
      ext <;> simp [foldRow, t1, t2, t3, t4]
  · rw [List.getElem?_eq_none (by omega), List.getElem?_eq_none (by simp; omega)]

/-- `todgen` on sorted rows. -/
theorem todgen_exec {e : Env F} {Ang : F → Prop} (hL : Laws e Ang) {n : Nat} (hn : 1 ≤ n)
    {N : Nat} (hT : TagLaw F N) (Y : Nat → List (Row F)) (hN : ∀ r < n, (Y r).length ≤ N)
    (hA : ∀ r < n, ∀ y ∈ Y r, Ang y.theta)
    (hs : ∀ r < n, (Y r).Pairwise (fun p q => Arith.lt q.theta p.theta = false))
    (hv : ∀ r < n, ∀ y ∈ Y r, ∃ v, sampleSpec e y.phi y.theta y.psi = ok v)
    (k : Nat → Nat) (hk : ∀ r < n, k r = ((Y r).filter (fun y => Arith.lt y.theta Arith.halfpi)).length) :
    Exec n (fun r => todgen e n r (k r) ((Y r).length - k r) (Y r)) (fun r => (Y r).map (conv e)) := by
  have key := todgen_parts hL hT Y hN hA hs hv k hk
  choose No So su1 su2 out1 out2 hkey using key
  unfold todgen
  refine Exec.seq (Exec.local hn (v := No) (fun r hr => (hkey r hr).1)) ?_
  refine Exec.seq (Exec.local hn (v := So) (fun r hr => (hkey r hr).2.1)) ?_
  refine Exec.seq (barrier_exec hn) ?_
  refine Exec.seq (v := fun r => ((No r).map (fun x => valF e false x.phi x.theta x.psi),
      (So r).map (fun x => valF e true x.phi x.theta x.psi))) ?_ ?_
  · unfold interpolTOD
    refine Exec.seq (Exec.local hn (v := su1) (fun r hr => (hkey r hr).2.2.1.run)) ?_
    refine Exec.seq (Exec.local hn (v := su2) (fun r hr => (hkey r hr).2.2.2.1.run)) ?_
    refine Exec.seq (chatter_exec hn hL.verb) ?_
    have hh := hemis_exec (F := F) hL.nan hn e.cfg e.ring hL.kern hL.ring_len (fun r => (su1 r).off.toNat)
      (fun r => (su1 r).n.toNat) (fun r => (su2 r).off.toNat) (fun r => (su2 r).n.toNat)
      (by intro r hr; have h := (hkey r hr).2.2.1; have a := h.off0; have b := h.n0; have c := h.win; omega)
      (by intro r hr; have h := (hkey r hr).2.2.2.1; have a := h.off0; have b := h.n0; have c := h.win; omega)
    refine Exec.seq (Exec.congr hn ?_ (fun _ _ => rfl) hh) ?_
    · intro r hr
      have h1 := (hkey r hr).2.2.1
      have h2 := (hkey r hr).2.2.2.1
      rw [Int.toNat_of_nonneg h1.off0, Int.toNat_of_nonneg h1.n0, Int.toNat_of_nonneg h2.off0, Int.toNat_of_nonneg h2.n0]
    refine Exec.seq (Exec.local hn (v := fun r => (No r).map (fun x => valF e false x.phi x.theta x.psi))
      (fun r hr => (hkey r hr).2.2.1.interp)) ?_
    refine Exec.seq (Exec.local hn (v := fun r => (So r).map (fun x => valF e true x.phi x.theta x.psi))
      (fun r hr => (hkey r hr).2.2.2.1.interp)) ?_
    exact Exec.local hn (fun _ _ => rfl)
  refine Exec.seq (Exec.local hn (v := out1) (fun r hr => (hkey r hr).2.2.2.2.1)) ?_
  refine Exec.local hn (fun r hr => ?_)
  rw [(hkey r hr).2.2.2.2.2.1, (hkey r hr).2.2.2.2.2.2.1]

/-- Facts about one rank in `middle`. -/
theorem middle_parts {e : Env F} {Ang : F → Prop} (hL : Laws e Ang) {n : Nat}
    (recv : Nat → List (Row F)) (hA : ∀ r < n, ∀ y ∈ recv r, Ang y.theta) :
    ∀ r, ∃ Y : List (Row F), r < n →
      (if (recv r).length ≠ 0 then hpsortTheta e.srt (tagSig (recv r)) else ok (tagSig (recv r))) = ok Y ∧
      Y.Perm (tagSig (recv r)) ∧ Y.Pairwise (fun p q => Arith.lt q.theta p.theta = false) := by
  intro r
  by_cases hr : r < n
  swap
  · exact ⟨[], fun h => absurd h hr⟩
  by_cases h0 : (recv r).length = 0
  · have : recv r = [] := List.length_eq_zero_iff.mp h0
    exact ⟨[], fun _ => ⟨by rw [this]; rfl, by rw [this]; exact List.Perm.refl _, by simp⟩⟩
  · obtain ⟨ys, h1, h2, h3⟩ := sort_rows hL (tagSig (recv r)) (by
      intro x hx
      obtain ⟨i, hi, rfl⟩ := List.getElem_of_mem hx
      have : (tagSig (recv r))[i].theta = ((recv r)[i]'(by simpa using hi)).theta := by simp [tagSig]
      rw [this]; exact hA r hr _ (List.getElem_mem _))
    exact ⟨ys, fun _ => ⟨by rw [if_pos h0]; exact h1, h2, h3⟩⟩

/-- The local stage is a row-wise map. -/
theorem middle_exec {e : Env F} {Ang : F → Prop} (hL : Laws e Ang) {n : Nat} (hn : 1 ≤ n)
    {N : Nat} (hT : TagLaw F N) (recv : Nat → List (Row F)) (hN : ∀ r < n, (recv r).length ≤ N)
    (hA : ∀ r < n, ∀ y ∈ recv r, Ang y.theta)
    (hv : ∀ r < n, ∀ y ∈ recv r, ∃ v, sampleSpec e y.phi y.theta y.psi = ok v) :
    Exec n (fun r => middle e n r (recv r)) (fun r => (recv r).map (conv e)) := by
  obtain ⟨tag, htag⟩ := tag_exists (F := F) hT
  have key := middle_parts hL recv hA
  choose Y hY using key
  have hpt : ∀ r < n, ∀ y ∈ Y r, ∃ i, ∃ (h : i < (recv r).length), y.theta = (recv r)[i].theta ∧ y.phi = (recv r)[i].phi ∧
      y.psi = (recv r)[i].psi ∧ tag y = i ∧ readTag y = ok (i : Int) := by
    intro r hr y hy
    have := (hY r hr).2.1.mem_iff.mp hy
    obtain ⟨i, hi, rfl⟩ := List.getElem_of_mem this
    have hi' : i < (recv r).length := by simpa using hi
    refine ⟨i, hi', by simp [tagSig], by simp [tagSig], by simp [tagSig], ?_⟩
    exact htag _ i (by have := hN r hr; omega) (tagSig_get _ i hi)
  have hlen : ∀ r < n, (Y r).length = (recv r).length := by
    intro r hr; rw [(hY r hr).2.1.length_eq]; simp
  unfold middle
  simp only
  refine Exec.seq (Exec.local hn (v := Y) (fun r hr => (hY r hr).1)) ?_
  refine Exec.seq (Exec.local hn (v := fun r => (Y r).map (fun y => (tag y : Int))) ?_) ?_
  · intro r hr
    apply mapM_ok
    intro y hy
    obtain ⟨i, _, _, _, _, h1, h2⟩ := hpt r hr y hy
    rw [h2, h1]
  have htg := todgen_exec hL hn hT Y (fun r hr => by rw [hlen r hr]; exact hN r hr)
    (by intro r hr y hy; obtain ⟨i, hi, h1, _⟩ := hpt r hr y hy; rw [h1]; exact hA r hr _ (List.getElem_mem hi))
    (fun r hr => (hY r hr).2.2)
    (by
      intro r hr y hy
      obtain ⟨i, hi, h1, h2, h3, _⟩ := hpt r hr y hy
      rw [h1, h2, h3]
      exact hv r hr _ (List.getElem_mem hi))
    (fun r => ((recv r).filter (fun y => Arith.lt y.theta Arith.halfpi)).length)
    (by
      intro r hr
      have h1 := ((hY r hr).2.1.map Row.theta)
      rw [tagSig_map Row.theta (fun _ _ => rfl)] at h1
      have h2 := (h1.filter (fun t => Arith.lt t Arith.halfpi)).length_eq
      rw [List.filter_map, List.filter_map, List.length_map, List.length_map] at h2
      exact h2.symm)
  refine Exec.seq (Exec.congr hn (fun r hr => by rw [hlen r hr]) (fun _ _ => rfl) htg) ?_
  refine Exec.local hn ?_
  intro r hr
  by_cases h0 : (recv r).length = 0
  · have e1 : recv r = [] := List.length_eq_zero_iff.mp h0
    have e2 : Y r = [] := List.length_eq_zero_iff.mp (by rw [hlen r hr, h0])
    rw [if_neg (by simpa using h0), e1, e2]
  · rw [if_pos h0]
    have hz : ((Y r).map (fun y => (tag y : Int))).zip ((Y r).map (conv e)) =
        (Y r).map (fun y => ((tag y : Int), conv e y)) := by
      rw [List.zip_map', ]
    rw [hz, untag (tagSig (recv r)) (Y r) (hY r hr).2.1 (fun y => (tag y : Int)) (conv e) _ _ (by simp [hlen r hr])]
    · rw [tagSig_map (conv e) (fun _ _ => rfl)]
    · intro i hi
      have := (htag _ i (by have := hN r hr; simp at hi; omega) (tagSig_get (recv r) i hi)).1
      simp only [this]

end Verif.Tod
