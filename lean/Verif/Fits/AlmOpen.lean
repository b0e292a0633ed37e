import Verif.Fits.AlmFile
import Verif.Api.Read

/-!
# C73: reading coefficients by file name
-/

namespace Verif.Fh
open Verif Res Verif.Harm Verif.Fits Verif.Share
variable {V α : Type}

/-! ## Limits -/

theorem zipRows_fst (K : Codec V α) {xs ys zs : List V} (h1 : xs.length ≤ ys.length) (h2 : xs.length ≤ zs.length) :
    (zipRows K xs ys zs).map Prod.fst = xs.map K.toInt := by
  unfold zipRows
  induction xs generalizing ys zs with
  | nil => simp
  | cons x xs ih =>
    cases ys with
    | nil => simp at h1
    | cons y ys =>
      cases zs with
      | nil => simp at h2
      | cons z zs => simpa using ih (by simpa using h1) (by simpa using h2)

/-- One step of the scan. -/
def scanStep (s : ℤ × ℤ) (idx : ℤ) : Res (ℤ × ℤ) := do
  let (l, m) ← decode idx
  ok (if l > s.1 then l else s.1, if m > s.2 then m else s.2)

theorem foldRes_map' {β γ σ : Type} (f : σ → γ → Res σ) (g : β → γ) (s : σ) (xs : List β) :
    foldRes (fun s x => f s (g x)) s xs = foldRes f s (xs.map g) := by
  induction xs generalizing s with
  | nil => rfl
  | cons x xs ih =>
    rw [List.map_cons, foldRes_cons, foldRes_cons]
    congr 1
    funext t; exact ih t

theorem scanChunks_run {K : Codec V α} {s : St V}
    (hs : Synced true s) (hg : GoodSt s) {n : ℕ} {ci cr cm : FCol V} (ht : AlmTable s n ci cr cm) :
    ∀ (ps : List (ℕ × ℕ)), (∀ p ∈ ps, p.1 + p.2 ≤ ci.cells.length) → ∀ a,
      scanChunks K ps a s =
        (foldRes (fun a p => foldRes scanStep a (((ci.cells.map K.toInt).drop p.1).take p.2)) a ps, s) := by
  obtain ⟨b, rest, hcur⟩ := ht.cur
  obtain ⟨i1, hi1⟩ := colInfo_synced hs hcur (col := 1) (by omega) (by simp; omega)
  intro ps
  induction ps with
  | nil => intro _ a; rfl
  | cons p ps ih =>
    intro hp a
    have hp0 := hp p (by simp)
    unfold scanChunks
    rw [bind_run, readColumn_synced hs hg hi1 hcur (by rfl) ht.num.1 ht.rep.1 (by decide) rfl, if_pos hp0]
    simp only
    have e : foldRes (fun s x => do
        let (l, m) ← decode (K.toInt x)
        ok (if l > s.1 then l else s.1, if m > s.2 then m else s.2)) a ((ci.cells.drop p.1).take p.2) =
        foldRes scanStep a (((ci.cells.map K.toInt).drop p.1).take p.2) := by
      rw [← List.map_drop, ← List.map_take, ← foldRes_map']
      rfl
    rw [bind_run, lift_run, e, foldRes_cons]
    cases foldRes scanStep a (((ci.cells.map K.toInt).drop p.1).take p.2) with
    | ok a' =>
      simp only [ok_bind]
      rw [ih (fun q hq => hp q (List.mem_cons_of_mem _ hq)) a']
      rfl
    | throw m => rfl
    | ub w => rfl

theorem keyPresent_run {s : St V} {o : OpenFile V} {h : Hdu V} (hc : connected s = true) (hf : s.fptr = some o)
    (hh : o.hdu? = some h) (name : String) : keyPresent name s = (ok (h.keys name).isSome, s) := by
  unfold keyPresent
  rw [get_bind, req_bind, if_pos hc, file_bind, hf]
  simp only [hh, Option.bind_some, pure_run]

theorem getKey_run {s : St V} {o : OpenFile V} {h : Hdu V} (hc : connected s = true) (hf : s.fptr = some o)
    (hh : o.hdu? = some h) {name : String} {v : V} (hv : h.keys name = some v) {t : PDT} (ht : keyType t = true) :
    getKey name t s = (ok v, s) := by
  unfold getKey
  rw [get_bind, req_bind, if_pos hc, if_pos ht, file_bind, hf]
  simp only [hh, Option.bind_some, hv, pure_run]

/-- The limits found through the handle are those of the rows and keys. -/
theorem almSizeH_run {X : Ext V} (hX : ∀ o, 1 ≤ X.rowsize o) {K : Codec V α} {s : St V} (hs : Synced true s) (hg : GoodSt s)
    {n : ℕ} {ci cr cm : FCol V} (ht : AlmTable s n ci cr cm) {o : OpenFile V} {h : Hdu V} (hf : s.fptr = some o)
    (hh : o.hdu? = some h) :
    almSizeH X K s = (getAlmSize ⟨(h.keys "MAX-LPOL").map K.toInt, (h.keys "MAX-MPOL").map K.toInt, tableRows K ci cr cm⟩, s) := by
  obtain ⟨b, rest, hcur⟩ := ht.cur
  have hcon : connected s = true := by
    have := (synced_full hs hcur).1
    unfold connected
    rw [this]; cases b <;> rfl
  have hscan : (do
      let n ← nelems 1
      req (intRange n) "safe_cast: value out of range"
      let chunk ← efficientChunkSize X 1
      scanChunks K ((ChunkMaker.new n.toNat chunk.toNat).all n.toNat) (-1, -1) : M V (ℤ × ℤ)) s =
      (foldRes (fun s row => do
        let (l, m) ← decode row.1
        ok (if l > s.1 then l else s.1, if m > s.2 then m else s.2)) (-1, -1) (tableRows K ci cr cm), s) := by
    obtain ⟨k, hk, hce⟩ := chunkSize_synced hX hs hg hcur ht.num.1 ht.rep.1
    rw [bind_run, nelems_synced hs hg hcur le_rfl (by rfl)]
    simp only
    rw [req_bind, if_pos (intRange_nat ht.small), bind_run, hce]
    simp only [Int.toNat_natCast]
    have hin : ∀ p ∈ (ChunkMaker.new ci.cells.length k.toNat).all ci.cells.length, p.1 + p.2 ≤ ci.cells.length := fun p hp => by
      exact (all_pos _ _ (by omega) _ _ p hp).2.2.2
    rw [scanChunks_run hs hg ht _ hin]
    rw [foldRes_flatMap]
    have := all_spec (ci.cells.map K.toInt) k.toNat (by omega) ci.cells.length 0
      (by have := Nat.le_mul_of_pos_right ci.cells.length (show 0 < k.toNat by omega); simp; omega)
    rw [List.length_map] at this
    unfold readChunked at this
    rw [show (ChunkMaker.new ci.cells.length k.toNat) = ⟨ci.cells.length, k.toNat, 0⟩ from rfl, this, List.drop_zero]
    rw [← zipRows_fst K ht.len.1 ht.len.2, ← foldRes_map']
    rfl
  unfold almSizeH
  rw [bind_run, keyPresent_run hcon hf hh]
  simp only
  cases h1 : h.keys "MAX-LPOL" with
  | none =>
    simp only [Option.isSome_none, Bool.false_eq_true, if_false, Option.map_none]
    unfold getAlmSize
    exact hscan
  | some l =>
    simp only [Option.isSome_some, if_true, Option.map_some]
    rw [bind_run, keyPresent_run hcon hf hh]
    simp only
    cases h2 : h.keys "MAX-MPOL" with
    | none =>
      simp only [Option.isSome_none, Bool.and_false, Bool.false_eq_true, if_false, Option.map_none]
      unfold getAlmSize
      exact hscan
    | some m =>
      simp only [Option.isSome_some, Bool.and_true, if_true, Option.map_some]
      rw [bind_run, getKey_run hcon hf hh h1 rfl]
      simp only
      rw [bind_run, getKey_run hcon hf hh h2 rfl]
      rfl

/-! ## Opening -/

theorem pushCols_ok (b : Bool) (cols : List (FCol V)) (hsup : ∀ c ∈ cols, c.ftc ≠ .other) (s : St V) :
    (pushCols b cols s).1 = ok () := by
  induction cols generalizing s with
  | nil => rfl
  | cons c rest ih =>
    unfold pushCols
    cases hf : c.ftc <;> first
      | (exfalso; exact hsup c (by simp) hf)
      | (simp only [ftc2type, lift_ok_bind, modify_bind]
         exact ih (fun d hd => hsup d (List.mem_cons_of_mem _ hd)) _)

/-- The HDU can be described: it is an image or a table of supported columns. -/
def Supported (h : Hdu V) : Prop :=
  match h.body with
  | .image .. => True
  | .table _ _ cols => ∀ c ∈ cols, c.ftc ≠ .other
  | .other => False

theorem initData_ok {s : St V} {o : OpenFile V} (hf : s.fptr = some o) {h : Hdu V} (hh : o.hdu? = some h) (hsup : Supported h) :
    (initData s).1 = ok () := by
  unfold initData
  rw [cleanData_bind, get_bind, cleaned_fptr, hf]
  simp only [hh, modify_bind]
  rcases hb : h.body with ⟨bp, axes, pix⟩ | ⟨b, n, cols⟩ | _
  · rfl
  · simp only [modify_bind]
    unfold Supported at hsup
    rw [hb] at hsup
    exact pushCols_ok b cols hsup _
  · unfold Supported at hsup
    rw [hb] at hsup
    exact hsup.elim

/-- `open` and `goto_hdu` position the handle. -/
theorem open_goto {X : Ext V} {disk : String → Option (List (Hdu V))} (hd : ∀ f hs, disk f = some hs → GoodFile hs)
    {f : String} (hlen : f.length < 1025) {hdus : List (Hdu V)} (hf : disk f = some hdus) {h1 h : Hdu V}
    (hh1 : hdus[0]? = some h1) (hs1 : Supported h1) {k : ℕ} (hk : 1 ≤ k) (hh : hdus[k - 1]? = some h) (hs : Supported h) :
    ∃ s, (openFile f >>= fun _ => gotoHdu X k) (fresh disk) = (ok (), s) ∧ Synced true s ∧ GoodSt s ∧
      s.fptr = some ⟨f, hdus, k - 1, false⟩ ∧ s.disk = disk ∧
      ∀ cut, Hist X cut true (fresh disk) s := by
  have hk' : k - 1 < hdus.length := by
    by_contra hc
    rw [List.getElem?_eq_none (by omega)] at hh
    simp at hh
  set s0 : St V := { fresh disk with fptr := some ⟨f, hdus, 0, false⟩ } with hs0
  have e1 : openFile f (fresh disk) = initData s0 := by
    unfold openFile
    rw [cleanAll_bind]
    have : closed (fresh disk) = fresh disk := rfl
    rw [this, if_neg (by omega), get_bind]
    simp only [fresh, hf, setFile_bind]
    rfl
  have hi1 := initData_ok (s := s0) rfl hh1 hs1
  obtain ⟨r1, t1, r2, r3, r4, r5, r6, -⟩ := initData_run s0 (o := ⟨f, hdus, 0, false⟩) rfl hh1
  have hrr : r1 = ok () := by rw [r2] at hi1; exact hi1
  subst hrr
  have eo : openFile f (fresh disk) = (ok (), t1) := by rw [e1, r2]
  have hist1 : ∀ cut, Hist X cut true (fresh disk) t1 := fun cut =>
    .snoc (.nil _) (op := .openF f) (r := ok ()) eo trivial (fun _ => rfl) trivial
  obtain ⟨sy1, g1⟩ := hist_sync (hist1 (fun _ v => v)) (fresh_good hd) (fresh_synced true disk)
  rw [bind_run, eo]
  simp only
  have hgo : ∃ s, gotoHdu X k t1 = (ok (), s) ∧ s.fptr = some ⟨f, hdus, k - 1, false⟩ ∧ s.disk = disk := by
    unfold gotoHdu
    rw [file_bind, r3]
    simp only [hs0]
    by_cases h0 : ((0 : ℕ) : ℤ) + 1 ≠ (k : ℤ)
    · rw [if_pos h0, if_pos (by constructor <;> omega), setFile_bind]
      have ek : ((k : ℤ) - 1).toNat = k - 1 := by omega
      rw [ek]
      set s2 : St V := { t1 with fptr := some ⟨f, hdus, k - 1, false⟩ }
      have hi2 := initData_ok (s := s2) rfl hh hs
      obtain ⟨q1, t2, q2, q3, q4, q5, q6, -⟩ := initData_run s2 (o := ⟨f, hdus, k - 1, false⟩) rfl hh
      have : q1 = ok () := by rw [q2] at hi2; exact hi2
      subst this
      exact ⟨t2, q2, q3, q4.trans r4⟩
    · rw [if_neg h0, pure_run]
      have : k - 1 = 0 := by omega
      rw [this]
      exact ⟨t1, rfl, r3, r4⟩
  obtain ⟨s, hg1, hg2, hg3⟩ := hgo
  have hist2 : ∀ cut, Hist X cut true (fresh disk) s := fun cut =>
    .snoc (hist1 cut) (op := .goto k) (r := ok ()) hg1 trivial (fun _ => rfl) rfl
  obtain ⟨sy, g⟩ := hist_sync (hist2 (fun _ v => v)) (fresh_good hd) (fresh_synced true disk)
  exact ⟨s, hg1, sy, g, hg2, hg3, hist2⟩

/-! ## The files as the reading code of conviqt sees them -/

/-- An HDU holding coefficients: a table whose first three columns are numeric; every index has a value. -/
def AlmHdu (h : Hdu V) : Prop :=
  ∃ b n ci cr cm rest, h.body = .table b n (ci :: cr :: cm :: rest) ∧ (∀ c ∈ ci :: cr :: cm :: rest, c.ftc ≠ .other) ∧
    (ci.ftc ≠ .string ∧ cr.ftc ≠ .string ∧ cm.ftc ≠ .string) ∧ (0 < ci.rep ∧ 0 < cr.rep ∧ 0 < cm.rep) ∧
    (ci.cells.length ≤ cr.cells.length ∧ ci.cells.length ≤ cm.cells.length) ∧ ci.cells.length < 2147483648

/-- The rows and keys of an HDU. -/
def viewTable (K : Codec V α) (h : Hdu V) : Table α :=
  ⟨(h.keys "MAX-LPOL").map K.toInt, (h.keys "MAX-MPOL").map K.toInt,
    match h.body with
    | .table _ _ (ci :: cr :: cm :: _) => tableRows K ci cr cm
    | _ => []⟩

/-- The disk as the list of the tables of every file, HDU 2, 3, …. -/
def view (K : Codec V α) (disk : String → Option (List (Hdu V))) : String → Option (List (Table α)) :=
  fun f => (disk f).map (fun hdus => (hdus.drop 1).map (viewTable K))

theorem almHdu_table {s : St V} {o : OpenFile V} {h : Hdu V} (hf : s.fptr = some o) (hh : o.hdu? = some h) (ha : AlmHdu h) (K : Codec V α) :
    ∃ n ci cr cm, AlmTable s n ci cr cm ∧ (viewTable K h).rows = tableRows K ci cr cm := by
  obtain ⟨b, n, ci, cr, cm, rest, h1, h2, h3, h4, h5, h6⟩ := ha
  refine ⟨n, ci, cr, cm, ⟨⟨b, rest, o, h.keys, hf, ?_⟩, h3, h4, h5, h6⟩, ?_⟩
  · rw [hh]; congr 1; cases h; simp only at h1; rw [h1]
  · unfold viewTable; rw [h1]

theorem almHdu_supported {h : Hdu V} (ha : AlmHdu h) : Supported h := by
  obtain ⟨b, n, ci, cr, cm, rest, h1, h2, _⟩ := ha
  unfold Supported; rw [h1]; exact h2

theorem view_hdu (K : Codec V α) {disk : String → Option (List (Hdu V))} {f : String} {hdus : List (Hdu V)} (hf : disk f = some hdus)
    {k : ℕ} (hk : 2 ≤ k) {h : Hdu V} (hh : hdus[k - 1]? = some h) :
    ∃ ts, view K disk f = some ts ∧ ts[k - 2]? = some (viewTable K h) := by
  refine ⟨_, by unfold view; rw [hf]; rfl, ?_⟩
  rw [List.getElem?_map, List.getElem?_drop, show 1 + (k - 2) = k - 1 by omega, hh]
  rfl

/-- **C73 (coefficients by name).** `read_Alm_from_fits(filename, …, hdu)` — open the file, move to the HDU, read through the
handle — does exactly what the reading code of conviqt is modelled to do (C27–C33): read the rows of that HDU. -/
theorem C73_read_named {X : Ext V} (hX : ∀ o, 1 ≤ X.rowsize o) (K : Codec V ℂ) {disk : String → Option (List (Hdu V))}
    (hd : ∀ f hs, disk f = some hs → GoodFile hs) {f : String} (hlen : f.length < 1025) {hdus : List (Hdu V)}
    (hf : disk f = some hdus) {h1 h : Hdu V} (hh1 : hdus[0]? = some h1) (hs1 : Supported h1) {k : ℕ} (hk : 2 ≤ k)
    (hh : hdus[k - 1]? = some h) (ha : AlmHdu h) {t : PDT} (hts : t ≠ .string) (htt : colType t = true) (l m : ℤ) :
    ∃ chunk, 0 < chunk ∧
      (((openFile f >>= fun _ => gotoHdu X k) >>= fun _ => readAlmH X K 0 t l m : M V (Alm ℂ)) (fresh disk)).1 =
        Obj.readHdu (view K disk) chunk f l m k := by
  obtain ⟨s, e, hs, hg, h2, _, _⟩ := open_goto (X := X) hd hlen hf hh1 hs1 (by omega) hh (almHdu_supported ha)
  obtain ⟨n, ci, cr, cm, hat, hrows⟩ := almHdu_table h2 hh ha K
  obtain ⟨chunk, hc, hr⟩ := readAlmH_run hX hts htt hs hg hat (K := K) (zero := 0) (lmax := l) (mmax := m)
  refine ⟨chunk, hc, ?_⟩
  rw [bind_run, e]
  simp only
  rw [hr]
  obtain ⟨ts, hv, hts'⟩ := view_hdu K hf hk hh
  unfold Obj.readHdu Obj.openHdu
  rw [if_neg (by omega), hv]
  simp only [hts', ok_bind, hrows]

/-- **C73 (limits by name).** The same for `get_almsize(filename, …)`. -/
theorem C73_size_named {X : Ext V} (hX : ∀ o, 1 ≤ X.rowsize o) (K : Codec V ℂ) {disk : String → Option (List (Hdu V))}
    (hd : ∀ f hs, disk f = some hs → GoodFile hs) {f : String} (hlen : f.length < 1025) {hdus : List (Hdu V)}
    (hf : disk f = some hdus) {h1 h : Hdu V} (hh1 : hdus[0]? = some h1) (hs1 : Supported h1)
    (hh : hdus[1]? = some h) (ha : AlmHdu h) :
    (((openFile f >>= fun _ => gotoHdu X (2 : ℕ)) >>= fun _ => almSizeH X K : M V (ℤ × ℤ)) (fresh disk)).1 =
        Obj.almSize (view K disk) f := by
  obtain ⟨s, e, hs, hg, h2, _, _⟩ := open_goto (X := X) hd hlen hf hh1 hs1 (k := 2) (by omega) hh (almHdu_supported ha)
  obtain ⟨n, ci, cr, cm, hat, hrows⟩ := almHdu_table h2 hh ha K
  rw [bind_run, e]
  simp only
  rw [almSizeH_run hX hs hg hat h2 hh, ← hrows]
  obtain ⟨ts, hv, hts'⟩ := view_hdu K hf (k := 2) le_rfl hh
  unfold Obj.almSize Obj.openHdu
  rw [if_neg (by omega), hv]
  simp only [hts', ok_bind]
  rfl

end Verif.Fh
