import Verif.Api.ReadProof

/-! # C23, C30, C31: reading beam and sky on many ranks -/

namespace Verif.Obj
open Verif Res Verif.Harm Verif.Fits Verif.Spmd

/-! ## specification -/

/-- The HDUs that are read. -/
def hdus (pol : Bool) : List ℕ := if pol then [2, 3, 4] else [2]

/-- The file holds the tables `tab hdu`, and all their rows within the limits carry an index of some `0 ≤ m ≤ l`. -/
structure GoodFile (pol : Bool) (fs : Files) (file : String) (l m : ℤ) (tab : ℕ → Table ℂ) : Prop where
  name : file.length < 1025
  tabs : ∃ ts, fs file = some ts ∧ ∀ hdu ∈ hdus pol, ts[hdu - 2]? = some (tab hdu)
  rows : ∀ hdu ∈ hdus pol, ∀ r ∈ (tab hdu).rows, r.1 > l * l + l + m + 1 ∨ ∃ l' m', 0 ≤ m' ∧ m' ≤ l' ∧ r.1 = code l' m'

/-- An expansion holds the coefficients of a table up to the given limits. -/
def Holds (t : Table ℂ) (l m : ℤ) (a : Alm ℂ) : Prop :=
  a.WF ∧ a.lmax = l ∧ a.mmax = m ∧ ∀ l' m', Valid l m l' m' → a.get l' m' = ok (lastVal 0 t.rows (code l' m'))

/-- The components hold the coefficients of the tables; without polarisation `G` and `C` are those of `old`. -/
def CompsHold (pol : Bool) (tab : ℕ → Table ℂ) (l m : ℤ) (old c : Comps) : Prop :=
  Holds (tab 2) l m c.T ∧ (pol = true → Holds (tab 3) l m c.G ∧ Holds (tab 4) l m c.C) ∧
    (pol = false → c.G = old.G ∧ c.C = old.C)

theorem GoodFile.open {pol : Bool} {fs : Files} {file : String} {l m : ℤ} {tab : ℕ → Table ℂ}
    (h : GoodFile pol fs file l m tab) {hdu : ℕ} (hm : hdu ∈ hdus pol) : openHdu fs file hdu = ok (tab hdu) := by
  obtain ⟨ts, h1, h2⟩ := h.tabs
  have := h.name
  unfold openHdu
  rw [if_neg (by omega), h1]
  dsimp only
  rw [h2 hdu hm]

theorem GoodFile.readHdu {pol : Bool} {fs : Files} {file : String} {l m : ℤ} {tab : ℕ → Table ℂ}
    (h : GoodFile pol fs file l m tab) (h0 : 0 ≤ m) (hml : m ≤ l) {chunk : ℕ} (hc : 0 < chunk) {hdu : ℕ}
    (hm : hdu ∈ hdus pol) : ∃ a, readHdu fs chunk file l m hdu = ok a ∧ Holds (tab hdu) l m a := by
  obtain ⟨a, h1, h2, h3, h4, h5⟩ := C27_read (0 : ℂ) (tab hdu).rows chunk hc l m h0 hml (h.rows hdu hm)
  refine ⟨a, ?_, h2, h3, h4, h5⟩
  unfold Obj.readHdu
  rw [h.open hm, ok_bind, h1]

theorem GoodFile.comps {pol : Bool} {fs : Files} {file : String} {l m : ℤ} {tab : ℕ → Table ℂ}
    (h : GoodFile pol fs file l m tab) (h0 : 0 ≤ m) (hml : m ≤ l) {chunk : ℕ} (hc : 0 < chunk) :
    ∃ c0, FileComps pol fs chunk file l m c0 ∧ ∀ old, CompsHold pol tab l m old (received pol c0 old) := by
  cases pol with
  | true =>
    obtain ⟨T, t1, t2⟩ := h.readHdu h0 hml hc (hdu := 2) (by simp [hdus])
    obtain ⟨G, g1, g2⟩ := h.readHdu h0 hml hc (hdu := 3) (by simp [hdus])
    obtain ⟨C, c1, c2⟩ := h.readHdu h0 hml hc (hdu := 4) (by simp [hdus])
    exact ⟨⟨T, G, C⟩, ⟨t1, fun _ => g1, fun _ => c1⟩, fun old => ⟨t2, fun _ => ⟨g2, c2⟩, fun h => by cases h⟩⟩
  | false =>
    obtain ⟨T, t1, t2⟩ := h.readHdu h0 hml hc (hdu := 2) (by simp [hdus])
    exact ⟨⟨T, T, T⟩, ⟨t1, (fun h => by cases h), fun h => by cases h⟩,
      fun old => ⟨t2, (fun h => by cases h), fun _ => ⟨rfl, rfl⟩⟩⟩

/-! ## the common prefix -/

section
variable {n : ℕ} (hn : 1 ≤ n) (pol : Bool) (fs : ℕ → Files) (chunk : ℕ → ℕ) (junk : ℕ → ℕ → ℂ) (file : String)
include hn

theorem prefix_steps {σ : Type} (s : ℕ → σ) (k : ℕ → ℤ → ℤ → Prog ℂ (σ × Option String)) {lf mf : ℤ}
    (hsz : fileSize pol (fs 0) file = ok (lf, mf)) :
    Steps n (fun r => attempt (if r = 0 then fileSize pol (fs r) file else ok (0, 0)) (s r) (fun sz => do
      let lf ← bcastI sz.1
      let mf ← bcastI sz.2
      k r lf mf)) (fun r => k r lf mf) := by
  let sz : ℕ → ℤ × ℤ := fun r => if r = 0 then (lf, mf) else (0, 0)
  have h1 := exec_bcastI hn (fun r => (sz r).1) _ (fun r lf => bcastI (sz r).2 >>= fun mf => k r lf mf)
  have h2 := exec_bcastI hn (fun r => (sz r).2) _ (fun r mf => k r lf mf)
  refine (h1.trans h2).congr_left (fun r hr => ?_)
  by_cases h0 : r = 0
  · subst h0
    rw [if_pos rfl, hsz]
    rfl
  · rw [if_neg h0]
    simp only [sz, if_neg h0]
    rfl

theorem prefix_stuck (hn2 : 2 ≤ n) {σ : Type} (s : ℕ → σ) (k : ℕ → ℤ → ℤ → Prog ℂ (σ × Option String)) {e : String}
    (hsz : fileSize pol (fs 0) file = throw e) :
    runAll n (fun r => attempt (if r = 0 then fileSize pol (fs r) file else ok (0, 0)) (s r) (fun sz => do
      let lf ← bcastI sz.1
      let mf ← bcastI sz.2
      k r lf mf)) = .stuck := by
  refine runAll_stuck_of_mix _ 1 0 (by omega) (by omega) ?_ ?_
  · rw [if_neg (by decide)]
    rfl
  · rw [if_pos rfl, hsz]
    rfl

/-- If rank 0 cannot read the coefficients, the other ranks wait for the broadcast forever. -/
theorem load_stuck (hn2 : 2 ≤ n) {σ : Type} {l m : ℤ} (h0 : 0 ≤ m) (hml : m ≤ l) (c : ℕ → Comps)
    (k : ℕ → Comps × Option String → Res σ) {e : String}
    (hrd : ∀ c, readComps pol (fs 0) (chunk 0) file l m c = throw e) :
    runAll n (fun r => loadComps pol (fs r) (chunk r) (junk r) r file l m (2 * (cnt l m : ℤ)) (c r) >>=
      fun x => Prog.done (k r x)) = .stuck := by
  choose d hd hT hGC hold using fun r => setComps_ok pol (junk r) (c r) h0 hml
  have hc := (cnt_pos h0 hml).1
  refine runAll_stuck_of_mix _ 1 0 (by omega) (by omega) ?_ ?_
  · unfold loadComps
    rw [hd 1]
    dsimp only
    rw [if_neg (by decide)]
    unfold attempt bcastComps bcastAlm
    dsimp only
    rw [if_pos]
    · rfl
    · rw [(hT 1).2.2]; omega
  · unfold loadComps
    rw [hd 0]
    dsimp only
    rw [if_pos rfl, hrd]
    rfl

end

/-! ## beam -/

/-- The limits chosen are consistent for every request that passes the checks. -/
theorem beamLimits_le {bl bm lf mf : ℤ} (hl : bl ≤ lf) : (beamLimits bl bm lf mf).2 ≤ (beamLimits bl bm lf mf).1 := by
  unfold beamLimits
  dsimp only
  split <;> split <;> omega

/-- The result of a successful `beam::read`. -/
theorem beam_read_ok {n : ℕ} (hn : 1 ≤ n) (fs : ℕ → Files) (chunk : ℕ → ℕ) (hc : 0 < chunk 0) (junk : ℕ → ℕ → ℂ)
    (bl bm : ℤ) (pol : Bool) (file : String) (b : ℕ → Beam) (lf mf L M : ℤ) (tab : ℕ → Table ℂ)
    (hsz : fileSize pol (fs 0) file = ok (lf, mf)) (hl : bl ≤ lf) (hm : bm ≤ mf)
    (hLM : beamLimits bl bm lf mf = (L, M)) (hM : 0 ≤ M) (hf : GoodFile pol (fs 0) file L M tab) :
    ∃ b' : ℕ → Beam, Returns n (fun r => beamRead (fs r) (chunk r) (junk r) r bl bm pol file (b r)) (fun r => (b' r, none)) ∧
      ∀ r, (b' r).lmax = some L ∧ (b' r).mmax = some M ∧ (b' r).pol = some pol ∧ (b' r).normalized = (b r).normalized ∧
        CompsHold pol tab L M (b r).comps (b' r).comps := by
  have hle : M ≤ L := by have := beamLimits_le (bm := bm) (mf := mf) hl; rw [hLM] at this; exact this
  obtain ⟨c0, hc0, hh⟩ := hf.comps hM hle hc
  have hbase : ∀ r, { { b r with pol := some pol } with lmax := some L, mmax := some M : Beam }.comps = (b r).comps :=
    fun r => rfl
  refine ⟨fun r => { { b r with pol := some pol } with lmax := some L, mmax := some M : Beam }.withComps
    (received pol c0 (b r).comps), ?_, fun r => ⟨rfl, rfl, rfl, rfl, hh _⟩⟩
  unfold Returns
  have hst := prefix_steps hn pol fs file (fun r => { b r with pol := some pol })
    (fun r => beamRead2 (fs r) (chunk r) (junk r) r bl bm pol file { b r with pol := some pol }) hsz
  have e1 : runAll n (fun r => beamRead (fs r) (chunk r) (junk r) r bl bm pol file (b r)) = _ := hst.runAll_eq hn
  rw [e1]
  have hex := exec_loadComps hn pol fs chunk junk file hM hle (fun r => (b r).comps) c0 hc0
  have hprog : ∀ r < n, (loadComps pol (fs r) (chunk r) (junk r) r file L M (2 * (cnt L M : ℤ)) (b r).comps >>=
      fun x => pure ({ { b r with pol := some pol } with lmax := some L, mmax := some M : Beam }.withComps x.1, x.2)) =
      beamRead2 (fs r) (chunk r) (junk r) r bl bm pol file { b r with pol := some pol } lf mf := by
    intro r hr
    unfold beamRead2
    rw [if_neg (by omega), if_neg (by omega), hLM]
    dsimp only
    rw [beam_size hM hle]
    rfl
  exact (Exec.congr hn hprog (fun r _ => rfl) (Exec.seq hex (Exec.pure _))).finish hn

/-- C31: a successful `beam::read` gives every rank the same intensity expansion (and the same polarisation expansions):
the one in the file as seen by rank 0, whatever the other ranks see and whatever the objects held before. -/
theorem C31_beam_same_partial {n : ℕ} (hn : 1 ≤ n) (fs : ℕ → Files) (chunk : ℕ → ℕ) (hc : 0 < chunk 0) (junk : ℕ → ℕ → ℂ)
    (bl bm : ℤ) (pol : Bool) (file : String) (b : ℕ → Beam) (lf mf L M : ℤ) (tab : ℕ → Table ℂ)
    (hsz : fileSize pol (fs 0) file = ok (lf, mf)) (hl : bl ≤ lf) (hm : bm ≤ mf)
    (hLM : beamLimits bl bm lf mf = (L, M)) (hM : 0 ≤ M) (hf : GoodFile pol (fs 0) file L M tab) :
    ∃ b' : ℕ → Beam, Returns n (fun r => beamRead (fs r) (chunk r) (junk r) r bl bm pol file (b r)) (fun r => (b' r, none)) ∧
      ∀ r s, (b' r).T = (b' s).T ∧ (pol = true → (b' r).G = (b' s).G ∧ (b' r).C = (b' s).C) := by
  obtain ⟨b', h1, h2⟩ := beam_read_ok hn fs chunk hc junk bl bm pol file b lf mf L M tab hsz hl hm hLM hM hf
  refine ⟨b', h1, fun r s => ?_⟩
  have key : ∀ {t : Table ℂ} {a c : Alm ℂ}, Holds t L M a → Holds t L M c → a = c := by
    rintro t a c ⟨a1, a2, a3, a4⟩ ⟨c1, c2, c3, c4⟩
    refine Alm.ext_get a1 c1 (by rw [a2, c2]) (by rw [a3, c3]) (fun l m hv => ?_)
    rw [a2, a3] at hv
    rw [a4 l m hv, c4 l m hv]
  obtain ⟨-, -, -, -, r1, r2, -⟩ := h2 r
  obtain ⟨-, -, -, -, s1, s2, -⟩ := h2 s
  exact ⟨key r1 s1, fun hp => ⟨key (r2 hp).1 (s2 hp).1, key (r2 hp).2 (s2 hp).2⟩⟩

/-- C30: requests for which `beam::read` does what is documented.  If `mmax` is left to the file or `lmax` and `mmax` are
requested equal, the read succeeds on every rank with `get_lmax()` and `get_mmax()` as requested (for a non-positive
argument the limit of the file, `mmax` not exceeding `lmax`), holding the coefficients of the file.
Full statement: the same for all `0 < bm ≤ bl`; it is false, see `C30_beam_mmax_wrong`. -/
theorem C30_beam_limits_partial {n : ℕ} (hn : 1 ≤ n) (fs : ℕ → Files) (chunk : ℕ → ℕ) (hc : 0 < chunk 0) (junk : ℕ → ℕ → ℂ)
    (bl bm : ℤ) (pol : Bool) (file : String) (b : ℕ → Beam) (lf mf : ℤ) (tab : ℕ → Table ℂ)
    (hsz : fileSize pol (fs 0) file = ok (lf, mf)) (hl : bl ≤ lf) (hm : bm ≤ mf)
    (hreq : bm ≤ 0 ∨ bm = bl) (hlf : 0 ≤ lf) (hmf : 0 ≤ mf) :
    let L := if 0 < bl then bl else lf
    let M := if 0 < bm then bm else min L mf
    GoodFile pol (fs 0) file L M tab →
    ∃ b' : ℕ → Beam, Returns n (fun r => beamRead (fs r) (chunk r) (junk r) r bl bm pol file (b r)) (fun r => (b' r, none)) ∧
      ∀ r, (b' r).lmax = some L ∧ (b' r).mmax = some M ∧ (b' r).pol = some pol ∧
        CompsHold pol tab L M (b r).comps (b' r).comps := by
  intro L M hf
  have hLM : beamLimits bl bm lf mf = (L, M) := by
    unfold beamLimits
    simp only [L, M, gt_iff_lt]
    by_cases h : 0 < bm
    · rw [if_pos h, if_pos h]; congr 1; omega
    · rw [if_neg h, if_neg h]
  have hM : 0 ≤ M := by
    simp only [M, L]
    split
    · omega
    · split <;> omega
  obtain ⟨b', h1, h2⟩ := beam_read_ok hn fs chunk hc junk bl bm pol file b lf mf L M tab hsz hl hm hLM hM hf
  exact ⟨b', h1, fun r => ⟨(h2 r).1, (h2 r).2.1, (h2 r).2.2.1, (h2 r).2.2.2.2⟩⟩

/-- C30 is false: for every request `0 < mmax < lmax` that the file can satisfy, `beam::read` succeeds but `get_mmax()` is
the requested `lmax`, not the requested `mmax`, on every rank (`mmax = beamlmax`, src/conviqt_io.cpp:48). -/
theorem C30_beam_mmax_wrong {n : ℕ} (hn : 1 ≤ n) (fs : ℕ → Files) (chunk : ℕ → ℕ) (hc : 0 < chunk 0) (junk : ℕ → ℕ → ℂ)
    (bl bm : ℤ) (pol : Bool) (file : String) (b : ℕ → Beam) (lf mf : ℤ) (tab : ℕ → Table ℂ)
    (hsz : fileSize pol (fs 0) file = ok (lf, mf)) (h0 : 0 < bm) (hlt : bm < bl) (hl : bl ≤ lf) (hm : bm ≤ mf)
    (hf : GoodFile pol (fs 0) file bl bl tab) :
    ∃ b' : ℕ → Beam, Returns n (fun r => beamRead (fs r) (chunk r) (junk r) r bl bm pol file (b r)) (fun r => (b' r, none)) ∧
      ∀ r, (b' r).lmax = some bl ∧ (b' r).mmax = some bl ∧ (b' r).mmax ≠ some bm := by
  have hLM : beamLimits bl bm lf mf = (bl, bl) := by
    unfold beamLimits
    simp only
    rw [if_pos (by omega), if_pos h0]
  obtain ⟨b', h1, h2⟩ := beam_read_ok hn fs chunk hc junk bl bm pol file b lf mf bl bl tab hsz hl hm hLM (by omega) hf
  refine ⟨b', h1, fun r => ⟨(h2 r).1, (h2 r).2.1, ?_⟩⟩
  rw [(h2 r).2.1]
  intro h
  injection h with h
  omega

/-- C30, C31: a request above the limits of the file makes `beam::read` throw on every rank, without a deadlock, and only
the polarisation flag of the object has changed. -/
theorem C31_beam_too_large_partial {n : ℕ} (hn : 1 ≤ n) (fs : ℕ → Files) (chunk : ℕ → ℕ) (junk : ℕ → ℕ → ℂ)
    (bl bm : ℤ) (pol : Bool) (file : String) (b : ℕ → Beam) (lf mf : ℤ)
    (hsz : fileSize pol (fs 0) file = ok (lf, mf)) (hbad : lf < bl ∨ mf < bm) :
    ∃ msg, Returns n (fun r => beamRead (fs r) (chunk r) (junk r) r bl bm pol file (b r))
      (fun r => ({ b r with pol := some pol }, some msg)) := by
  have hst := prefix_steps hn pol fs file (fun r => { b r with pol := some pol })
    (fun r => beamRead2 (fs r) (chunk r) (junk r) r bl bm pol file { b r with pol := some pol }) hsz
  have e1 : runAll n (fun r => beamRead (fs r) (chunk r) (junk r) r bl bm pol file (b r)) = _ := hst.runAll_eq hn
  unfold Returns
  rw [e1]
  unfold beamRead2
  by_cases h : lf < bl
  · simp only [if_pos h]
    exact ⟨_, runAll_done hn _⟩
  · simp only [if_neg h, if_pos (hbad.resolve_left h)]
    exact ⟨_, runAll_done hn _⟩

/-- C31 is false for files that cannot be opened: with two or more ranks, if rank 0 cannot open the file or find its
tables, rank 0 throws and the others wait forever. -/
theorem C31_beam_missing_file_deadlock {n : ℕ} (hn2 : 2 ≤ n) (fs : ℕ → Files) (chunk : ℕ → ℕ) (junk : ℕ → ℕ → ℂ)
    (bl bm : ℤ) (pol : Bool) (file : String) (b : ℕ → Beam) (hname : file.length < 1025) (hmiss : fs 0 file = none) :
    runAll n (fun r => beamRead (fs r) (chunk r) (junk r) r bl bm pol file (b r)) = .stuck := by
  have hopen : ∀ hdu, openHdu (fs 0) file hdu = throw "could not open the named file" := by
    intro hdu; unfold openHdu; rw [if_neg (by omega), hmiss]
  have hsz : fileSize pol (fs 0) file = throw "could not open the named file" := by
    unfold fileSize almSizePol almSize
    cases pol with
    | true => rw [if_pos rfl, foldRes_cons, hopen]; rfl
    | false => rw [if_neg (by decide), hopen]; rfl
  exact prefix_stuck (by omega) pol fs file hn2 _ _ hsz

/-- C31 is false for files with malformed rows: if the size can be determined (header keys) and the request is granted, but
reading the coefficients throws on rank 0, the others wait forever. -/
theorem C31_beam_bad_row_deadlock {n : ℕ} (hn2 : 2 ≤ n) (fs : ℕ → Files) (chunk : ℕ → ℕ) (junk : ℕ → ℕ → ℂ)
    (bl bm : ℤ) (pol : Bool) (file : String) (b : ℕ → Beam) (lf mf L M : ℤ) (e : String)
    (hsz : fileSize pol (fs 0) file = ok (lf, mf)) (hl : bl ≤ lf) (hm : bm ≤ mf)
    (hLM : beamLimits bl bm lf mf = (L, M)) (hM : 0 ≤ M)
    (hrd : ∀ c, readComps pol (fs 0) (chunk 0) file L M c = throw e) :
    runAll n (fun r => beamRead (fs r) (chunk r) (junk r) r bl bm pol file (b r)) = .stuck := by
  have hn : 1 ≤ n := by omega
  have hle : M ≤ L := by have := beamLimits_le (bm := bm) (mf := mf) hl; rw [hLM] at this; exact this
  have hst := prefix_steps hn pol fs file (fun r => { b r with pol := some pol })
    (fun r => beamRead2 (fs r) (chunk r) (junk r) r bl bm pol file { b r with pol := some pol }) hsz
  have e1 : runAll n (fun r => beamRead (fs r) (chunk r) (junk r) r bl bm pol file (b r)) = _ := hst.runAll_eq hn
  rw [e1]
  have hst := load_stuck hn pol fs chunk junk file hn2 hM hle (fun r => (b r).comps)
    (fun r x => ok ({ { b r with pol := some pol } with lmax := some L, mmax := some M : Beam }.withComps x.1, x.2)) hrd
  rw [← hst]
  refine runAll_congr hn (fun r hr => ?_)
  unfold beamRead2
  rw [if_neg (by omega), if_neg (by omega), hLM]
  dsimp only
  rw [beam_size hM hle]
  rfl

/-- An `lmax` left to the file together with an explicit `mmax` is not handled: for `lmax = -1` and every `mmax > 0` the file can
satisfy, the coefficient array has size zero and its first element is used out of bounds, on every rank. -/
theorem C30_beam_default_lmax_undefined {n : ℕ} (hn : 1 ≤ n) (fs : ℕ → Files) (chunk : ℕ → ℕ) (junk : ℕ → ℕ → ℂ)
    (bm : ℤ) (file : String) (b : ℕ → Beam) (lf mf : ℤ) (hsz : fileSize false (fs 0) file = ok (lf, mf))
    (h0 : 0 < bm) (hm : bm ≤ mf) (hl : 0 ≤ lf) :
    ∀ r < n, r ≠ 0 → HasUB n (fun r => beamRead (fs r) (chunk r) (junk r) r (-1) bm false file (b r)) r := by
  intro r hr hr0
  have hst := prefix_steps hn false fs file (fun r => { b r with pol := some false })
    (fun r => beamRead2 (fs r) (chunk r) (junk r) r (-1) bm false file { b r with pol := some false }) hsz
  refine ⟨_, hst, "broadcast buffer out of bounds", ?_⟩
  have hLM : beamLimits (-1) bm lf mf = (lf, -1) := by
    unfold beamLimits
    simp only
    rw [if_neg (by decide), if_pos h0]
  unfold beamRead2
  rw [if_neg (by omega), if_neg (by omega), hLM]
  dsimp only
  unfold loadComps
  have hset : ∀ c, setComps false (junk r) c lf (-1) = ({ c with T := ⟨lf, -1, []⟩ }, none) := by
    intro c
    unfold setComps setAlm numAlms
    rw [if_pos (by omega)]
    simp
  rw [hset]
  dsimp only
  rw [if_neg hr0]
  unfold attempt bcastComps bcastAlm
  dsimp only
  rw [if_neg (by simp)]
  rfl

/-! ## C23 -/

/-- Every normal return of the program satisfies `Q`, whatever the answers of the collectives. -/
def Post {α β : Type} (Q : β → Prop) : Prog α β → Prop
  | .done (.ok b) => Q b
  | .done _ => True
  | .call _ k => ∀ a, Post Q (k a)

theorem Post.bind {α β γ : Type} {Q : γ → Prop} (p : Prog α β) (f : β → Prog α γ) (h : ∀ b, Post Q (f b)) :
    Post Q (p >>= f) := by
  induction p with
  | done r => cases r with
    | ok b => exact h b
    | throw m => trivial
    | ub w => trivial
  | call c k ih => exact fun a => ih a

theorem post_attempt {β σ : Type} {Q : σ × Option String → Prop} (r : Res β) (s : σ)
    (k : β → Prog ℂ (σ × Option String)) (hs : ∀ e, Q (s, e)) (hk : ∀ b, Post Q (k b)) : Post Q (attempt r s k) := by
  unfold attempt
  cases r with
  | ok b => exact hk b
  | throw m => exact hs _
  | ub w => trivial

/-- C23 is false: `beam::read` never changes the `normalized` flag, whatever the outcome of the call on the rank. -/
theorem C23_read_keeps_flag (fs : Files) (chunk : ℕ) (junk : ℕ → ℂ) (rank : ℕ) (bl bm : ℤ) (pol : Bool) (file : String)
    (b : Beam) :
    Post (fun x => x.1.normalized = b.normalized) (beamRead fs chunk junk rank bl bm pol file b) := by
  unfold beamRead
  refine post_attempt _ _ _ (fun e => rfl) (fun sz => Post.bind _ _ (fun lf => Post.bind _ _ (fun mf => ?_)))
  unfold beamRead2
  split
  · rfl
  · split
    · rfl
    · exact Post.bind _ _ (fun r => rfl)

/-- C23 holds for objects that were never normalised: a new beam is not normalised, and reading does not mark it as
normalised, so that `normalize()` then refers to the expansion that was read.
Full statement: the same for every beam; see `C23_read_after_normalize`. -/
theorem C23_fresh_partial (junk0 : ℂ) (fs : Files) (chunk : ℕ) (junk : ℕ → ℂ) (rank : ℕ) (bl bm : ℤ) (pol : Bool)
    (file : String) (b : Beam) (hb : b.normalized = false) :
    (Beam.fresh junk0).normalized = false ∧
    Post (fun x => x.1.normalized = false) (beamRead fs chunk junk rank bl bm pol file b) := by
  refine ⟨rfl, ?_⟩
  have := C23_read_keeps_flag fs chunk junk rank bl bm pol file b
  rw [hb] at this
  exact this

/-- C23 is false: reading into a normalised beam succeeds and leaves it marked as normalised; `normalize()` then returns 1 and
does not touch the new expansion, whatever its monopole. -/
theorem C23_read_after_normalize {n : ℕ} (hn : 1 ≤ n) (fs : ℕ → Files) (chunk : ℕ → ℕ) (hc : 0 < chunk 0)
    (junk : ℕ → ℕ → ℂ) (bl bm : ℤ) (pol : Bool) (file : String) (b : ℕ → Beam) (lf mf L M : ℤ) (tab : ℕ → Table ℂ)
    (hsz : fileSize pol (fs 0) file = ok (lf, mf)) (hl : bl ≤ lf) (hm : bm ≤ mf)
    (hLM : beamLimits bl bm lf mf = (L, M)) (hM : 0 ≤ M) (hf : GoodFile pol (fs 0) file L M tab)
    (hb : ∀ r, (b r).normalized = true) :
    ∃ b' : ℕ → Beam, Returns n (fun r => beamRead (fs r) (chunk r) (junk r) r bl bm pol file (b r)) (fun r => (b' r, none)) ∧
      ∀ r, (b' r).normalized = true ∧ normalize (b' r) = ok (1, b' r) ∧
        (b' r).T.get 0 0 = ok (lastVal 0 (tab 2).rows (code 0 0)) := by
  obtain ⟨b', h1, h2⟩ := beam_read_ok hn fs chunk hc junk bl bm pol file b lf mf L M tab hsz hl hm hLM hM hf
  have hle : M ≤ L := by have := beamLimits_le (bm := bm) (mf := mf) hl; rw [hLM] at this; exact this
  refine ⟨b', h1, fun r => ?_⟩
  obtain ⟨-, -, -, h3, h4, -⟩ := h2 r
  rw [hb r] at h3
  refine ⟨h3, ?_, h4.2.2.2 0 0 ⟨le_refl _, hM, le_refl _, by omega⟩⟩
  unfold normalize
  rw [if_pos h3]

/-! ## sky -/

/-- The components hold the coefficients of the tables with the given factors applied degree by degree. -/
def CompsHoldScaled (pol : Bool) (tab : ℕ → Table ℂ) (l m : ℤ) (f g : ℤ → ℝ) (old c : Comps) : Prop :=
  let H (t : Table ℂ) (h : ℤ → ℝ) (a : Alm ℂ) : Prop := a.WF ∧ a.lmax = l ∧ a.mmax = m ∧
    ∀ l' m', Valid l m l' m' → a.get l' m' = ok (lastVal 0 t.rows (code l' m') * ((h l' : ℝ) : ℂ))
  H (tab 2) f c.T ∧ (pol = true → H (tab 3) g c.G ∧ H (tab 4) g c.C) ∧ (pol = false → c.G = old.G ∧ c.C = old.C)

theorem Holds.scaled {t : Table ℂ} {l m : ℤ} {a b : Alm ℂ} (h : Holds t l m a) {f : ℤ → ℝ} (hs : ScaledByDegree f a b) :
    b.WF ∧ b.lmax = l ∧ b.mmax = m ∧
    ∀ l' m', Valid l m l' m' → b.get l' m' = ok (lastVal 0 t.rows (code l' m') * ((f l' : ℝ) : ℂ)) := by
  obtain ⟨h1, h2, h3, h4⟩ := h
  obtain ⟨s1, s2, s3, s4⟩ := hs
  refine ⟨s1, s2.trans h2, s3.trans h3, fun l' m' hv => ?_⟩
  exact s4 l' m' (by rw [h2, h3]; exact hv) _ (h4 l' m' hv)

theorem deconvolve_ok (pol : Bool) (tab : ℕ → Table ℂ) {l m : ℤ} {old c : Comps} (h : CompsHold pol tab l m old c)
    (fwhm : ℝ) : ∃ c', deconvolve pol c fwhm = ok c' ∧
      CompsHoldScaled pol tab l m (gaussFactor (-(arcmin2rad * fwhm)))
        (fun l => gaussFactor (-(arcmin2rad * fwhm)) l * polFactor (-(arcmin2rad * fwhm))) old c' := by
  obtain ⟨hT, hGC, hold⟩ := h
  unfold deconvolve
  cases pol with
  | true =>
    obtain ⟨hG, hC⟩ := hGC rfl
    obtain ⟨T', G', C', e, t, g, c⟩ := smoothPol_spec hT.1 hG.1 hC.1 (by rw [hG.2.1, hT.2.1]) (by rw [hC.2.1, hT.2.1])
      (-(arcmin2rad * fwhm))
    refine ⟨⟨T', G', C'⟩, ?_, hT.scaled t, fun _ => ⟨hG.scaled g, hC.scaled c⟩, fun h => by cases h⟩
    rw [if_pos rfl, e]; rfl
  | false =>
    obtain ⟨T', e, t⟩ := smooth_spec hT.1 (-(arcmin2rad * fwhm))
    refine ⟨{ c with T := T' }, ?_, hT.scaled t, (fun h => by cases h), fun _ => hold rfl⟩
    rw [if_neg (by decide), e]; rfl

/-- C30, C31 for the sky: a request that the file can satisfy succeeds on every rank; `get_lmax()` is the requested limit (the
limit of the file for a non-positive request), and every rank holds the coefficients of rank 0's file, deconvolved: multiplied
by the factors of a Gaussian of minus the given width (in arc minutes). -/
theorem C30_sky_read {n : ℕ} (hn : 1 ≤ n) (fs : ℕ → Files) (chunk : ℕ → ℕ) (hc : 0 < chunk 0) (junk : ℕ → ℕ → ℂ)
    (sl : ℤ) (pol : Bool) (file : String) (fwhm : ℝ) (s : ℕ → Sky) (lf mf : ℤ) (tab : ℕ → Table ℂ)
    (hsz : fileSize pol (fs 0) file = ok (lf, mf)) (hl : sl ≤ lf) (h0 : 0 ≤ lf) :
    let L := if 0 < sl then sl else lf
    L ≤ mf → GoodFile pol (fs 0) file L L tab →
    ∃ s' : ℕ → Sky, Returns n (fun r => skyRead (fs r) (chunk r) (junk r) r sl pol file fwhm (s r)) (fun r => (s' r, none)) ∧
      ∀ r, (s' r).lmax = some L ∧ (s' r).pol = some pol ∧
        CompsHoldScaled pol tab L L (gaussFactor (-(arcmin2rad * fwhm)))
          (fun l => gaussFactor (-(arcmin2rad * fwhm)) l * polFactor (-(arcmin2rad * fwhm))) (s r).comps (s' r).comps := by
  intro L hmf hf
  have hL : 0 ≤ L := by simp only [L]; split <;> omega
  obtain ⟨c0, hc0, hh⟩ := hf.comps hL (le_refl L) hc
  choose d hd hdh using fun r => deconvolve_ok pol tab (hh (s r).comps) fwhm
  refine ⟨fun r => { { s r with pol := some pol } with lmax := some L : Sky }.withComps (d r), ?_,
    fun r => ⟨rfl, rfl, hdh r⟩⟩
  unfold Returns
  have hst := prefix_steps hn pol fs file (fun r => { s r with pol := some pol })
    (fun r => skyRead2 (fs r) (chunk r) (junk r) r sl pol file fwhm { s r with pol := some pol }) hsz
  have e1 : runAll n (fun r => skyRead (fs r) (chunk r) (junk r) r sl pol file fwhm (s r)) = _ := hst.runAll_eq hn
  rw [e1]
  have hex := exec_loadComps hn pol fs chunk junk file hL (le_refl L) (fun r => (s r).comps) c0 hc0
  let k : ℕ → Comps × Option String → Prog ℂ (Sky × Option String) := fun r x =>
    match x.2 with
    | some e => pure ({ { s r with pol := some pol } with lmax := some L : Sky }.withComps x.1, some e)
    | none => attempt (deconvolve pol x.1 fwhm) ({ { s r with pol := some pol } with lmax := some L : Sky }.withComps x.1)
        (fun c => pure ({ { s r with pol := some pol } with lmax := some L : Sky }.withComps c, none))
  have hprog : ∀ r < n, (loadComps pol (fs r) (chunk r) (junk r) r file L L (2 * (cnt L L : ℤ)) (s r).comps >>= k r) =
      skyRead2 (fs r) (chunk r) (junk r) r sl pol file fwhm { s r with pol := some pol } lf mf := by
    intro r hr
    unfold skyRead2
    rw [if_neg (by omega)]
    dsimp only
    have hL' : (if sl > 0 then sl else lf) = L := rfl
    rw [hL', if_neg (by omega), sky_size hL]
    rfl
  refine (Exec.congr hn hprog (fun r _ => rfl) (Exec.seq hex (?_ : Exec n (fun r => k r (received pol c0 (s r).comps, none))
    (fun r => ({ { s r with pol := some pol } with lmax := some L : Sky }.withComps (d r), none))))).finish hn
  refine Exec.congr hn (fun r hr => ?_) (fun r _ => rfl) (Exec.pure _)
  simp only [k]
  rw [hd r]
  rfl

/-- C31 for the sky: a request above the limits of the file makes `sky::read` throw on every rank, without a deadlock.  The
object is left with the new polarisation flag, and if only `mmax` is too small also with the new `lmax`. -/
theorem C31_sky_too_large_partial {n : ℕ} (hn : 1 ≤ n) (fs : ℕ → Files) (chunk : ℕ → ℕ) (junk : ℕ → ℕ → ℂ)
    (sl : ℤ) (pol : Bool) (file : String) (fwhm : ℝ) (s : ℕ → Sky) (lf mf : ℤ)
    (hsz : fileSize pol (fs 0) file = ok (lf, mf)) (hbad : lf < sl ∨ mf < (if 0 < sl then sl else lf)) :
    ∃ msg, Returns n (fun r => skyRead (fs r) (chunk r) (junk r) r sl pol file fwhm (s r))
      (fun r => ({ s r with pol := some pol,
                            lmax := if lf < sl then (s r).lmax else some (if 0 < sl then sl else lf) }, some msg)) := by
  have hst := prefix_steps hn pol fs file (fun r => { s r with pol := some pol })
    (fun r => skyRead2 (fs r) (chunk r) (junk r) r sl pol file fwhm { s r with pol := some pol }) hsz
  have e1 : runAll n (fun r => skyRead (fs r) (chunk r) (junk r) r sl pol file fwhm (s r)) = _ := hst.runAll_eq hn
  unfold Returns
  rw [e1]
  unfold skyRead2
  by_cases h : lf < sl
  · simp only [if_pos h]
    exact ⟨_, runAll_done hn _⟩
  · have hb := hbad.resolve_left h
    simp only [if_neg h, gt_iff_lt, if_pos hb]
    exact ⟨_, runAll_done hn _⟩

/-- C31 is false for the sky as well when rank 0 cannot open the file. -/
theorem C31_sky_missing_file_deadlock {n : ℕ} (hn2 : 2 ≤ n) (fs : ℕ → Files) (chunk : ℕ → ℕ) (junk : ℕ → ℕ → ℂ)
    (sl : ℤ) (pol : Bool) (file : String) (fwhm : ℝ) (s : ℕ → Sky) (hname : file.length < 1025) (hmiss : fs 0 file = none) :
    runAll n (fun r => skyRead (fs r) (chunk r) (junk r) r sl pol file fwhm (s r)) = .stuck := by
  have hopen : ∀ hdu, openHdu (fs 0) file hdu = throw "could not open the named file" := by
    intro hdu; unfold openHdu; rw [if_neg (by omega), hmiss]
  have hsz : fileSize pol (fs 0) file = throw "could not open the named file" := by
    unfold fileSize almSizePol almSize
    cases pol with
    | true => rw [if_pos rfl, foldRes_cons, hopen]; rfl
    | false => rw [if_neg (by decide), hopen]; rfl
  exact prefix_stuck (by omega) pol fs file hn2 _ _ hsz

/-- C30, long names: a file name of 1025 characters or more (whether or not there is such a file) is copied behind the end of a
buffer: both reads have undefined behaviour on the first rank. -/
theorem C30_long_name (fs : Files) (chunk : ℕ) (junk : ℕ → ℂ) (bl bm sl : ℤ) (pol : Bool) (file : String) (fwhm : ℝ) (b : Beam) (s : Sky)
    (hname : 1025 ≤ file.length) :
    beamRead fs chunk junk 0 bl bm pol file b = .done (.ub "file name buffer overflow") ∧
    skyRead fs chunk junk 0 sl pol file fwhm s = .done (.ub "file name buffer overflow") := by
  have hopen : ∀ hdu, openHdu fs file hdu = ub "file name buffer overflow" := by
    intro hdu; unfold openHdu; rw [if_pos hname]
  have hsz : fileSize pol fs file = ub "file name buffer overflow" := by
    unfold fileSize almSizePol almSize
    cases pol with
    | true => rw [if_pos rfl, foldRes_cons, hopen]; rfl
    | false => rw [if_neg (by decide), hopen]; rfl
  constructor
  · unfold beamRead; rw [if_pos rfl, hsz]; rfl
  · unfold skyRead; rw [if_pos rfl, hsz]; rfl

/-- C30: the limits attributed to a file.  Unpolarised: those of the first table; polarised: the largest of the three tables
(`lmax` and `mmax` separately), whatever their order. -/
theorem C30_file_limits (fs : Files) (file : String) (hname : file.length < 1025) (t2 t3 t4 : Table ℂ) (rest : List (Table ℂ))
    (hf : fs file = some (t2 :: t3 :: t4 :: rest)) (l2 m2 l3 m3 l4 m4 : ℤ) (h2 : getAlmSize t2 = ok (l2, m2))
    (h3 : getAlmSize t3 = ok (l3, m3)) (h4 : getAlmSize t4 = ok (l4, m4)) :
    fileSize false fs file = ok (l2, m2) ∧
    fileSize true fs file = ok (max 0 (max l2 (max l3 l4)), max 0 (max m2 (max m3 m4))) := by
  have o : ∀ (k : ℕ) (t : Table ℂ), (t2 :: t3 :: t4 :: rest)[k]? = some t → openHdu fs file (k + 2) = ok t := by
    intro k t hk
    unfold openHdu
    rw [if_neg (by omega), hf]
    simp only [Nat.add_sub_cancel, hk]
  have o2 := o 0 t2 rfl
  have o3 := o 1 t3 rfl
  have o4 := o 2 t4 rfl
  constructor
  · unfold fileSize almSize
    rw [if_neg (by decide), o2]
    exact h2
  · unfold fileSize almSizePol
    rw [if_pos rfl]
    simp only [foldRes_cons, foldRes_nil, o2, o3, o4, h2, h3, h4, ok_bind]
    refine congrArg ok (Prod.ext ?_ ?_) <;> simp only <;> split_ifs <;> omega

/-! ## non-vacuity -/

/-- A file with one table, `lmax = 2`, `mmax = 2`, and a row in wrong order. -/
noncomputable def fileEx : Files := fun _ => some [⟨some 2, some 2, [(code 1 1, 5), (code 0 0, 3), (code 2 0, 7)]⟩]

theorem fileEx_size : fileSize false fileEx "b" = ok (2, 2) := by
  unfold fileSize almSize openHdu
  rw [if_neg (by decide), if_neg (by decide)]
  rfl

theorem fileEx_good (l m : ℤ) : GoodFile false fileEx "b" l m (fun _ => ⟨some 2, some 2, [(code 1 1, 5), (code 0 0, 3), (code 2 0, 7)]⟩) := by
  refine ⟨by decide, ⟨_, rfl, fun hdu h => ?_⟩, fun hdu h r hr => ?_⟩
  · have : hdu = 2 := by simpa [hdus] using h
    subst this; rfl
  · right
    simp only [List.mem_cons, List.not_mem_nil, or_false] at hr
    rcases hr with rfl | rfl | rfl
    · exact ⟨1, 1, by decide, by decide, rfl⟩
    · exact ⟨0, 0, by decide, by decide, rfl⟩
    · exact ⟨2, 0, by decide, by decide, rfl⟩

/-- Three ranks, of which only rank 0 sees the file, read a beam with `lmax = 2` and `mmax = 1` and obtain `mmax = 2`. -/
example : ∃ b' : ℕ → Beam, Returns 3 (fun r => beamRead (if r = 0 then fileEx else fun _ => none) 4 (fun _ => 0) r 2 1 false "b"
    (Beam.fresh 0)) (fun r => (b' r, none)) ∧ ∀ r, (b' r).lmax = some 2 ∧ (b' r).mmax = some 2 ∧ (b' r).mmax ≠ some 1 :=
  C30_beam_mmax_wrong (by decide) (fun r => if r = 0 then fileEx else fun _ => none) (fun _ => 4) (by decide) (fun _ _ => 0)
    2 1 false "b" (fun _ => Beam.fresh 0) 2 2 _ fileEx_size (by decide) (by decide) (by decide) (by decide) (fileEx_good 2 2)

/-- … and with `mmax` left to the file they obtain the limits requested; the same for the sky. -/
example : (∃ b' : ℕ → Beam, Returns 3 (fun r => beamRead (if r = 0 then fileEx else fun _ => none) 4 (fun _ => 0) r 1 (-1) false "b"
    (Beam.fresh 0)) (fun r => (b' r, none)) ∧ ∀ r, (b' r).mmax = some 1) ∧
    ∃ s' : ℕ → Sky, Returns 3 (fun r => skyRead (if r = 0 then fileEx else fun _ => none) 4 (fun _ => 0) r 2 false "b" 30
    (Sky.fresh 0)) (fun r => (s' r, none)) ∧ ∀ r, (s' r).lmax = some 2 := by
  constructor
  · obtain ⟨b', h1, h2⟩ := C30_beam_limits_partial (by decide) (fun r => if r = 0 then fileEx else fun _ => none) (fun _ => 4)
      (by decide) (fun _ _ => 0) 1 (-1) false "b" (fun _ => Beam.fresh 0) 2 2 _ fileEx_size (by decide) (by decide)
      (.inl (by decide)) (by decide) (by decide) (fileEx_good _ _) (n := 3)
    exact ⟨b', h1, fun r => (h2 r).2.1⟩
  · obtain ⟨s', h1, h2⟩ := C30_sky_read (by decide) (fun r => if r = 0 then fileEx else fun _ => none) (fun _ => 4)
      (by decide) (fun _ _ => 0) 2 false "b" 30 (fun _ => Sky.fresh 0) 2 2 _ fileEx_size (by decide) (by decide)
      (by decide) (fileEx_good _ _) (n := 3)
    exact ⟨s', h1, fun r => (h2 r).1⟩

/-- A polarised file whose second table has the highest degree and whose third has the highest order. -/
example : fileSize true (fun _ => some [⟨some 2, some 1, []⟩, ⟨some 5, some 0, []⟩, ⟨some 3, some 3, []⟩]) "p" = ok (5, 3) :=
  (C30_file_limits _ "p" (by decide) _ _ _ [] rfl 2 1 5 0 3 3 rfl rfl rfl).2

end Verif.Obj
