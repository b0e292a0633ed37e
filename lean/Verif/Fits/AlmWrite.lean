import Verif.Fits.AlmOpen

/-!
# C73: writing coefficients through the file handle
-/

namespace Verif.Fh
open Verif Res Verif.Harm Verif.Fits Verif.Share
variable {V α : Type}

/-! ## Three columns being filled -/

/-- The table `write_Alm_to_fits` creates, with the cells of the three columns; `ft` is the type of the values in the file. -/
def almHdu (ft : FTC) (n : ℕ) (xs ys zs : List V) (keys : String → Option V) : Hdu V :=
  ⟨.table true n [⟨"index", "l*l+l+m+1", 1, .int32, xs⟩, ⟨"real", "unknown", 1, ft, ys⟩, ⟨"imag", "unknown", 1, ft, zs⟩], keys⟩

/-- The handle on such a table: `pre` and `post` are the HDUs before and behind it. -/
def almSt (disk : String → Option (List (Hdu V))) (name : String) (pre post : List (Hdu V)) (tv : PDT) (h : Hdu V) (n : ℕ) : St V :=
  ⟨disk, some ⟨name, pre ++ h :: post, pre.length, true⟩, .bin, [],
    [⟨"index", "l*l+l+m+1", 1, .int32⟩, ⟨"real", "unknown", 1, tv⟩, ⟨"imag", "unknown", 1, tv⟩], n⟩

theorem overwrite_end (fill : V) (xs ys : List V) (p : ℕ) (hp : p = ys.length) :
    overwrite fill (xs ++ List.replicate p fill) xs.length ys = xs ++ ys := by
  subst hp
  unfold overwrite
  simp

theorem hdu_mid (name : String) (pre post : List (Hdu V)) (h : Hdu V) (b : Bool) :
    (⟨name, pre ++ h :: post, pre.length, b⟩ : OpenFile V).hdu? = some h := by
  unfold OpenFile.hdu?; simp

theorem setHdu_mid (name : String) (pre post : List (Hdu V)) (h h' : Hdu V) (b : Bool) :
    (⟨name, pre ++ h :: post, pre.length, b⟩ : OpenFile V).setHdu h' = ⟨name, pre ++ h' :: post, pre.length, b⟩ := by
  unfold OpenFile.setHdu; simp

theorem extend_one {fill : V} {n m : ℕ} {c : FCol V} (hs : c.ftc ≠ .string) (hr : c.rep = 1) (hl : c.cells.length = m) :
    FCol.extend fill n c = { c with cells := c.cells ++ List.replicate (n - m) fill } := by
  unfold FCol.extend FCol.per
  rw [if_neg hs, hr, hl, Nat.mul_one]

/-- Appending to the first column: the others are filled. -/
theorem write_col1 {X : Ext V} {cut : ℤ → V → V} {disk : String → Option (List (Hdu V))} {name : String} {pre post : List (Hdu V)}
    {tv : PDT} {ft : FTC} (hft : ft ≠ .string) {n : ℕ} {xs ys zs : List V} (hx : xs.length = n) (hy : ys.length = n) (hz : zs.length = n)
    {keys : String → Option V} {us : List V} (hu : us ≠ []) :
    writeColumn X cut 1 us .int32 n (almSt disk name pre post tv (almHdu ft n xs ys zs keys) n) =
      (ok (), almSt disk name pre post tv (almHdu ft (n + us.length) (xs ++ us) (ys ++ List.replicate us.length X.fill)
        (zs ++ List.replicate us.length X.fill) keys) (n + us.length)) := by
  have hu' : us.length ≠ 0 := by simpa using hu
  unfold writeColumn
  rw [if_neg (by decide), if_pos (by rfl)]
  unfold writeCol
  rw [get_bind, req_bind, if_pos (by rfl), show colAt (almSt disk name pre post tv (almHdu ft n xs ys zs keys) n) 1 = ok ⟨"index", "l*l+l+m+1", 1, .int32⟩ from rfl,
    lift_ok_bind]
  simp only [Int.tdiv_one, Int.tmod_one]
  rw [if_neg (by decide), show type2ftc .int32 = ok .int32 from rfl, lift_ok_bind]
  unfold finishWrite
  rw [file_bind]
  simp only [almSt]
  have e : cfWriteCol X.fill ⟨name, pre ++ almHdu ft n xs ys zs keys :: post, pre.length, true⟩ false 1 ((n : ℤ) + 1) (0 + 1) us =
      ok ⟨name, pre ++ almHdu ft (n + us.length) (xs ++ us) (ys ++ List.replicate us.length X.fill)
        (zs ++ List.replicate us.length X.fill) keys :: post, pre.length, true⟩ := by
    unfold cfWriteCol
    rw [hdu_mid]
    simp only [almHdu, sub_self, Int.toNat_zero, List.getElem?_cons_zero]
    rw [if_neg (by decide), if_neg hu', if_neg (by simp)]
    have hper : FCol.per (⟨"index", "l*l+l+m+1", 1, .int32, xs⟩ : FCol V) = 1 := rfl
    rw [hper, if_neg (by omega)]
    simp only [setHdu_mid, add_sub_cancel_right, Nat.cast_one, mul_one, Int.toNat_natCast, Nat.add_sub_cancel, Nat.div_one, List.map_cons, List.map_nil,
      zero_add, sub_self, add_zero]
    rw [show max n (n + us.length) = n + us.length by omega]
    rw [extend_one (by simp) rfl (show _ = n from hx), extend_one hft rfl (show _ = n from hy), extend_one hft rfl (show _ = n from hz)]
    simp only [List.modify_cons, Nat.add_sub_cancel_left, if_true]
    subst hx
    rw [overwrite_end _ _ _ _ rfl]
  rw [e]
  simp only [setFile_bind, modify_run]
  congr 2
  omega

/-- Overwriting the fill values of the second column. -/
theorem write_col2 {X : Ext V} {cut : ℤ → V → V} {disk : String → Option (List (Hdu V))} {name : String} {pre post : List (Hdu V)}
    {tv : PDT} {ft : FTC} (hft : ft ≠ .string) {n p : ℕ} {xs ys zs : List V} (hx : xs.length = n + p) (hy : ys.length = n) (hz : zs.length = n + p)
    {keys : String → Option V} {us : List V} (hu : us.length = p) (hp : p ≠ 0) :
    writeColumn X cut 2 us .float64 n (almSt disk name pre post tv (almHdu ft (n + p) xs (ys ++ List.replicate p X.fill) zs keys) (n + p)) =
      (ok (), almSt disk name pre post tv (almHdu ft (n + p) xs (ys ++ us) zs keys) (n + p)) := by
  have hu' : us.length ≠ 0 := by omega
  unfold writeColumn
  rw [if_neg (by decide), if_pos (by rfl)]
  unfold writeCol
  rw [get_bind, req_bind, if_pos (by rfl), show colAt (almSt disk name pre post tv (almHdu ft (n + p) xs (ys ++ List.replicate p X.fill) zs keys) (n + p)) 2 = ok ⟨"real", "unknown", 1, tv⟩ from rfl,
    lift_ok_bind]
  simp only [Int.tdiv_one, Int.tmod_one]
  rw [if_neg (by decide), show type2ftc .float64 = ok .double from rfl, lift_ok_bind]
  unfold finishWrite
  rw [file_bind]
  simp only [almSt]
  have e : cfWriteCol X.fill ⟨name, pre ++ almHdu ft (n + p) xs (ys ++ List.replicate p X.fill) zs keys :: post, pre.length, true⟩ false 2 ((n : ℤ) + 1) (0 + 1) us =
      ok ⟨name, pre ++ almHdu ft (n + p) xs (ys ++ us) zs keys :: post, pre.length, true⟩ := by
    unfold cfWriteCol
    rw [hdu_mid]
    simp only [almHdu, show ((2 : ℤ) - 1).toNat = 1 from rfl, List.getElem?_cons_zero, List.getElem?_cons_succ]
    rw [if_neg (by decide), if_neg hu', if_neg (by simp [hft])]
    have hper : FCol.per (⟨"real", "unknown", 1, ft, ys ++ List.replicate p X.fill⟩ : FCol V) = 1 := if_neg hft
    rw [hper, if_neg (by omega)]
    simp only [setHdu_mid, add_sub_cancel_right, Nat.cast_one, mul_one, Int.toNat_natCast, Nat.add_sub_cancel, Nat.div_one, List.map_cons, List.map_nil,
      zero_add, sub_self, add_zero]
    rw [show max (n + p) (n + us.length) = n + p by omega]
    rw [extend_one (by simp) rfl (show _ = n + p from hx), extend_one hft rfl (show _ = n + p by simp [hy]), extend_one hft rfl (show _ = n + p from hz)]
    simp only [List.modify_succ_cons, List.modify_zero_cons, Nat.sub_self, List.replicate_zero, List.append_nil]
    subst hy
    rw [overwrite_end _ _ _ _ hu.symm]
  rw [e]
  simp only [setFile_bind, modify_run]
  congr 2
  omega

/-- Overwriting the fill values of the third column. -/
theorem write_col3 {X : Ext V} {cut : ℤ → V → V} {disk : String → Option (List (Hdu V))} {name : String} {pre post : List (Hdu V)}
    {tv : PDT} {ft : FTC} (hft : ft ≠ .string) {n p : ℕ} {xs ys zs : List V} (hx : xs.length = n + p) (hy : ys.length = n + p) (hz : zs.length = n)
    {keys : String → Option V} {us : List V} (hu : us.length = p) (hp : p ≠ 0) :
    writeColumn X cut 3 us .float64 n (almSt disk name pre post tv (almHdu ft (n + p) xs ys (zs ++ List.replicate p X.fill) keys) (n + p)) =
      (ok (), almSt disk name pre post tv (almHdu ft (n + p) xs ys (zs ++ us) keys) (n + p)) := by
  have hu' : us.length ≠ 0 := by omega
  unfold writeColumn
  rw [if_neg (by decide), if_pos (by rfl)]
  unfold writeCol
  rw [get_bind, req_bind, if_pos (by rfl), show colAt (almSt disk name pre post tv (almHdu ft (n + p) xs ys (zs ++ List.replicate p X.fill) keys) (n + p)) 3 = ok ⟨"imag", "unknown", 1, tv⟩ from rfl,
    lift_ok_bind]
  simp only [Int.tdiv_one, Int.tmod_one]
  rw [if_neg (by decide), show type2ftc .float64 = ok .double from rfl, lift_ok_bind]
  unfold finishWrite
  rw [file_bind]
  simp only [almSt]
  have e : cfWriteCol X.fill ⟨name, pre ++ almHdu ft (n + p) xs ys (zs ++ List.replicate p X.fill) keys :: post, pre.length, true⟩ false 3 ((n : ℤ) + 1) (0 + 1) us =
      ok ⟨name, pre ++ almHdu ft (n + p) xs ys (zs ++ us) keys :: post, pre.length, true⟩ := by
    unfold cfWriteCol
    rw [hdu_mid]
    simp only [almHdu, show ((3 : ℤ) - 1).toNat = 2 from rfl, List.getElem?_cons_zero, List.getElem?_cons_succ]
    rw [if_neg (by decide), if_neg hu', if_neg (by simp [hft])]
    have hper : FCol.per (⟨"imag", "unknown", 1, ft, zs ++ List.replicate p X.fill⟩ : FCol V) = 1 := if_neg hft
    rw [hper, if_neg (by omega)]
    simp only [setHdu_mid, add_sub_cancel_right, Nat.cast_one, mul_one, Int.toNat_natCast, Nat.add_sub_cancel, Nat.div_one, List.map_cons, List.map_nil,
      zero_add, sub_self, add_zero]
    rw [show max (n + p) (n + us.length) = n + p by omega]
    rw [extend_one (by simp) rfl (show _ = n + p from hx), extend_one hft rfl (show _ = n + p from hy), extend_one hft rfl (show _ = n + p by simp [hz])]
    simp only [List.modify_succ_cons, List.modify_zero_cons, Nat.sub_self, List.replicate_zero, List.append_nil]
    subst hz
    rw [overwrite_end _ _ _ _ hu.symm]
  rw [e]
  simp only [setFile_bind, modify_run]
  congr 2
  omega

/-! ## The loop over the chunks -/

theorem writeFrom_length {zero : α} {a : Alm α} {mmax : ℕ} : ∀ {n : ℕ} {p : ℕ × ℕ} {rows : List (ℤ × α)},
    writeFrom zero a mmax n p = ok rows → rows.length = n := by
  intro n
  induction n with
  | zero => intro p rows h; unfold writeFrom at h; injection h with h; subst h; rfl
  | succ n ih =>
    intro p rows h
    unfold writeFrom at h
    obtain ⟨v, _, h⟩ := bind_eq_ok.mp h
    obtain ⟨r, hr, h⟩ := bind_eq_ok.mp h
    injection h with h; subst h
    simp [ih hr]

theorem writeFrom_add {zero : α} {a : Alm α} {mmax : ℕ} : ∀ {n m : ℕ} {p : ℕ × ℕ} {rows : List (ℤ × α)},
    writeFrom zero a mmax (n + m) p = ok rows → ∃ r1 r2, writeFrom zero a mmax n p = ok r1 ∧
      writeFrom zero a mmax m ((step mmax)^[n] p) = ok r2 ∧ rows = r1 ++ r2 := by
  intro n
  induction n with
  | zero => intro m p rows h; rw [Nat.zero_add] at h; exact ⟨[], rows, rfl, h, rfl⟩
  | succ n ih =>
    intro m p rows h
    rw [show n + 1 + m = (n + m) + 1 by omega] at h
    unfold writeFrom at h
    obtain ⟨v, hv, h⟩ := bind_eq_ok.mp h
    obtain ⟨r, hr, h⟩ := bind_eq_ok.mp h
    injection h with h; subst h
    obtain ⟨r1, r2, h1, h2, h3⟩ := ih hr
    refine ⟨(code p.1 p.2, v) :: r1, r2, ?_, by rw [Function.iterate_succ_apply]; exact h2, by rw [h3]; rfl⟩
    unfold writeFrom
    rw [hv, ok_bind, h1, ok_bind]

/-- The columns of a list of rows. -/
def colI (K : Codec V α) (rows : List (ℤ × α)) : List V := rows.map (fun r => K.ofInt r.1)
def colR (K : Codec V α) (rows : List (ℤ × α)) : List V := rows.map (fun r => K.re r.2)
def colM (K : Codec V α) (rows : List (ℤ × α)) : List V := rows.map (fun r => K.im r.2)

/-- The HDU holding these rows. -/
def rowsHdu (K : Codec V α) (ft : FTC) (rows : List (ℤ × α)) (keys : String → Option V) : Hdu V :=
  almHdu ft rows.length (colI K rows) (colR K rows) (colM K rows) keys

theorem writeChunks_run {X : Ext V} {cut : ℤ → V → V} {K : Codec V α} {zero : α} {a : Alm α} {mmax : ℕ}
    {disk : String → Option (List (Hdu V))} {name : String} {pre post : List (Hdu V)} {tv : PDT} {ft : FTC} (hft : ft ≠ .string)
    {keys : String → Option V} {full c : ℕ} (hc : 0 < c) :
    ∀ (fuel : ℕ) (old new : List (ℤ × α)) (p : ℕ × ℕ), full ≤ old.length + fuel * c → old.length ≤ full →
      writeFrom zero a mmax (full - old.length) p = ok new →
      writeChunks X cut K zero a mmax (ChunkMaker.all fuel ⟨full, c, old.length⟩) p
          (almSt disk name pre post tv (rowsHdu K ft old keys) old.length) =
        (ok (), almSt disk name pre post tv (rowsHdu K ft (old ++ new) keys) (old ++ new).length) := by
  intro fuel
  induction fuel with
  | zero =>
    intro old new p h1 h2 h3
    have : full - old.length = 0 := by omega
    rw [this] at h3
    unfold writeFrom at h3
    injection h3 with h3; subst h3
    unfold ChunkMaker.all writeChunks
    rw [List.append_nil]; rfl
  | succ fuel ih =>
    intro old new p h1 h2 h3
    unfold ChunkMaker.all ChunkMaker.getNext
    by_cases hoff : old.length ≥ full
    · have : full - old.length = 0 := by omega
      rw [this] at h3
      unfold writeFrom at h3
      injection h3 with h3; subst h3
      simp only [if_pos hoff]
      unfold writeChunks
      rw [List.append_nil]; rfl
    · simp only [if_neg hoff]
      set q := min c (full - old.length) with hq
      have hsp : full - old.length = q + (full - old.length - q) := by omega
      rw [hsp] at h3
      obtain ⟨r1, r2, g1, g2, rfl⟩ := writeFrom_add h3
      have hl1 := writeFrom_length g1
      have hq0 : q ≠ 0 := by omega
      have hr1 : r1 ≠ [] := by intro e; rw [e] at hl1; simp at hl1; omega
      unfold writeChunks
      rw [bind_run, lift_run, g1]
      simp only
      rw [bind_run]
      have w1 := write_col1 (X := X) (cut := cut) (disk := disk) (name := name) (pre := pre) (post := post) (tv := tv) hft
        (n := old.length) (xs := colI K old) (ys := colR K old) (zs := colM K old)
        (by simp [colI]) (by simp [colR]) (by simp [colM]) (keys := keys)
        (us := r1.map (fun r => K.ofInt r.1)) (by simpa using hr1)
      unfold rowsHdu
      rw [w1]
      simp only [List.length_map, hl1]
      rw [bind_run, write_col2 hft (by simp [colI, hl1]) (by simp [colR]) (by simp [colM]) (by simp [hl1]) hq0]
      simp only
      rw [bind_run, write_col3 hft (by simp [colI, hl1]) (by simp [colR, hl1]) (by simp [colM]) (by simp [hl1]) hq0]
      simp only
      have e1 : (old ++ r1).length = old.length + q := by simp [hl1]
      have := ih (old ++ r1) r2 ((step mmax)^[q] p)
      rw [e1] at this
      by_cases hcm : c ≤ full - old.length
      · have hqc : q = c := by omega
        have t := this (by rw [hqc]; have : (fuel + 1) * c = fuel * c + c := by ring
                           omega) (by omega) (by rw [show full - (old.length + q) = full - old.length - q by omega]; exact g2)
        rw [hqc] at t ⊢
        unfold rowsHdu colI colR colM at t
        rw [e1, hqc] at t
        simp only [List.map_append] at t
        unfold colI colR colM
        rw [List.append_assoc] at t
        simpa [List.map_append] using t
      · have hqc : q = full - old.length := by omega
        have hr2 : r2 = [] := by
          have := writeFrom_length g2
          rw [hqc, Nat.sub_self] at this
          simpa using this
        subst hr2
        have hnil : ChunkMaker.all fuel ⟨full, c, old.length + c⟩ = [] := by
          cases fuel with
          | zero => rfl
          | succ n => unfold ChunkMaker.all ChunkMaker.getNext; simp only [if_pos (show old.length + c ≥ full by omega)]
        rw [hnil]
        unfold writeChunks
        rw [pure_run]
        simp only [List.append_nil, e1, colI, colR, colM, List.map_append]

/-! ## Inserting the table -/

/-- The file types of the values: the types `write_Alm_to_fits` can be asked for. -/
def fileType (dt : PDT) (ft : FTC) (tv : PDT) : Prop := type2fitschar dt = ok ft ∧ ft ≠ .string ∧ ftc2type ft = ok tv

theorem fileType_double : fileType .float64 .double .float64 := ⟨rfl, by decide, rfl⟩
theorem fileType_float : fileType .float32 .float .float32 := ⟨rfl, by decide, rfl⟩

theorem insert_run {K : Codec V α} {dt tv : PDT} {ft : FTC} (ht : fileType dt ft tv) {s : St V} {o : OpenFile V}
    (hf : s.fptr = some o) (hrw : o.rw = true) (hcur : o.cur < o.hdus.length) :
    insertBintab (almCols dt) s = (ok (), almSt s.disk o.name (o.hdus.take (o.cur + 1)) (o.hdus.drop (o.cur + 1)) tv
      (rowsHdu K ft [] (fun _ => none)) 0) := by
  obtain ⟨h1, h2, h3⟩ := ht
  have hcols : mapCols (bintabCol (V := V)) (almCols dt) =
      ok [⟨"index", "l*l+l+m+1", 1, .int32, []⟩, ⟨"real", "unknown", 1, ft, []⟩, ⟨"imag", "unknown", 1, ft, []⟩] := by
    unfold almCols
    have a1 : bintabCol (V := V) ⟨"index", "l*l+l+m+1", 1, .int32⟩ = ok ⟨"index", "l*l+l+m+1", 1, .int32, []⟩ := by
      unfold bintabCol; rw [if_neg (by decide)]; rfl
    have a2 : bintabCol (V := V) ⟨"real", "unknown", 1, dt⟩ = ok ⟨"real", "unknown", 1, ft, []⟩ := by
      unfold bintabCol; rw [if_neg (show ¬(81 ≤ "real".length ∨ 81 ≤ "unknown".length) by decide)]
      simp only [h1, ok_bind]; rfl
    have a3 : bintabCol (V := V) ⟨"imag", "unknown", 1, dt⟩ = ok ⟨"imag", "unknown", 1, ft, []⟩ := by
      unfold bintabCol; rw [if_neg (show ¬(81 ≤ "imag".length ∨ 81 ≤ "unknown".length) by decide)]
      simp only [h1, ok_bind]; rfl
    unfold mapCols mapCols mapCols mapCols
    rw [a1, a2, a3]; rfl
  unfold insertBintab
  rw [cleanData_bind, hcols, lift_ok_bind, file_bind, cleaned_fptr, hf]
  simp only
  unfold cfInsert
  rw [hrw, if_neg (by decide), lift_ok_bind, setFile_bind]
  unfold initData
  rw [cleanData_bind, get_bind]
  have hlen : (o.hdus.take (o.cur + 1)).length = o.cur + 1 := by simp; omega
  simp only [cleaned, hf]
  have hh : (⟨o.name, o.hdus.take (o.cur + 1) ++ (⟨.table true 0 [⟨"index", "l*l+l+m+1", 1, .int32, []⟩, ⟨"real", "unknown", 1, ft, []⟩, ⟨"imag", "unknown", 1, ft, []⟩], fun _ => none⟩ : Hdu V) :: o.hdus.drop (o.cur + 1), o.cur + 1, true⟩ : OpenFile V).hdu? =
      some ⟨.table true 0 [⟨"index", "l*l+l+m+1", 1, .int32, []⟩, ⟨"real", "unknown", 1, ft, []⟩, ⟨"imag", "unknown", 1, ft, []⟩], fun _ => none⟩ := by
    have := hdu_mid o.name (o.hdus.take (o.cur + 1)) (o.hdus.drop (o.cur + 1)) (⟨.table true 0 [⟨"index", "l*l+l+m+1", 1, .int32, []⟩, ⟨"real", "unknown", 1, ft, []⟩, ⟨"imag", "unknown", 1, ft, []⟩], fun _ => none⟩ : Hdu V) true
    rw [hlen] at this
    exact this
  rw [hh]
  simp only [modify_bind]
  unfold pushCols pushCols pushCols pushCols
  simp only [show ftc2type .int32 = ok .int32 from rfl, h3, lift_ok_bind, modify_bind, pure_run]
  unfold almSt rowsHdu almHdu
  rw [hlen]
  rfl

/-! ## The whole writer -/

theorem setKey_run {name : String} {v : V} {disk : String → Option (List (Hdu V))} {fname : String} {pre post : List (Hdu V)} {tv : PDT}
    {K : Codec V α} {ft : FTC} {rows : List (ℤ × α)} {keys : String → Option V} {n : ℕ} :
    setKey name v .int32 (almSt disk fname pre post tv (rowsHdu K ft rows keys) n) =
      (ok (), almSt disk fname pre post tv (rowsHdu K ft rows (fun k => if k = name then some v else keys k)) n) := by
  unfold setKey
  rw [get_bind, req_bind, if_pos (by rfl), if_pos (by rfl), file_bind]
  simp only [almSt, hdu_mid, if_true, setFile_run, setHdu_mid]
  rfl

/-- The keys `write_Alm_to_fits` sets. -/
def almKeys (K : Codec V α) (lmax mmax : ℕ) : String → Option V :=
  fun k => if k = "MAX-MPOL" then some (K.ofInt mmax) else if k = "MAX-LPOL" then some (K.ofInt lmax) else none

theorem writeAlmH_run {X : Ext V} (hX : ∀ o, 1 ≤ X.rowsize o) {cut : ℤ → V → V} {K : Codec V α} {zero : α} {a : Alm α} {lmax mmax : ℕ}
    {rows : List (ℤ × α)} (hw : writeAlm zero a lmax mmax = ok rows) {dt tv : PDT} {ft : FTC} (ht : fileType dt ft tv) {s : St V}
    {o : OpenFile V} (hf : s.fptr = some o) (hrw : o.rw = true) (hcur : o.cur < o.hdus.length) :
    writeAlmH X cut K zero a lmax mmax dt s = (ok (), almSt s.disk o.name (o.hdus.take (o.cur + 1)) (o.hdus.drop (o.cur + 1)) tv
      (rowsHdu K ft rows (almKeys K lmax mmax)) rows.length) := by
  unfold writeAlmH
  rw [bind_run, insert_run (K := K) ht hf hrw hcur]
  simp only
  set s1 := almSt s.disk o.name (o.hdus.take (o.cur + 1)) (o.hdus.drop (o.cur + 1)) tv (rowsHdu K ft [] (fun _ => none)) 0 with hs1
  obtain ⟨k, hk, hce⟩ : ∃ k : ℤ, 1 ≤ k ∧ efficientChunkSize X 1 s1 = (ok k, s1) := by
    refine ⟨X.rowsize ⟨o.name, o.hdus.take (o.cur + 1) ++ rowsHdu K ft [] (fun _ => none) :: o.hdus.drop (o.cur + 1), (o.hdus.take (o.cur + 1)).length, true⟩ * 1, by rw [mul_one]; exact hX _, ?_⟩
    unfold efficientChunkSize
    rw [get_bind, req_bind, if_pos (by rfl), file_bind]
    simp only [hs1, almSt, req_bind]
    rw [if_pos (by simpa using hX _)]
    rfl
  rw [bind_run, hce]
  simp only
  have hch := writeChunks_run (X := X) (cut := cut) (K := K) (zero := zero) (a := a) (mmax := mmax) (disk := s.disk) (name := o.name)
    (pre := o.hdus.take (o.cur + 1)) (post := o.hdus.drop (o.cur + 1)) (tv := tv) ht.2.1 (keys := fun _ => none)
    (full := nAlms lmax mmax) (c := k.toNat) (by omega) (nAlms lmax mmax) [] rows (0, 0)
    (by have := Nat.le_mul_of_pos_right (nAlms lmax mmax) (show 0 < k.toNat by omega); simpa using this) (by simp)
    (by simpa [writeAlm] using hw)
  rw [bind_run]
  have e : writeChunks X cut K zero a mmax ((ChunkMaker.new (nAlms lmax mmax) k.toNat).all (nAlms lmax mmax)) (0, 0) s1 = _ := hch
  rw [e]
  simp only [List.nil_append]
  rw [bind_run, setKey_run]
  simp only
  rw [setKey_run]
  rfl

/-! ## Writing a file and reading it back -/

/-- Several expansions in a row, as `write_Alm_to_fits(out, almT, almG, almC, …)`, ls_alm_fitsio.h:102-112, does with three. -/
def writeMany (X : Ext V) (cut : ℤ → V → V) (K : Codec V α) (zero : α) (lmax mmax : ℕ) (dt : PDT) : List (Alm α) → M V Unit
  | [] => pure ()
  | a :: as => do
    writeAlmH X cut K zero a lmax mmax dt
    writeMany X cut K zero lmax mmax dt as

/-- Create a file, write the expansions, close it. -/
def writeFile (X : Ext V) (cut : ℤ → V → V) (K : Codec V α) (zero : α) (lmax mmax : ℕ) (dt : PDT) (f : String) (as : List (Alm α)) :
    M V Unit := do
  create f
  writeMany X cut K zero lmax mmax dt as
  cleanAll

/-- What an expansion looks like after its values have been stored in a file. -/
def stored (K : Codec V α) (v : α) : α := K.join (K.re v) (K.im v)

theorem writeMany_run {X : Ext V} (hX : ∀ o, 1 ≤ X.rowsize o) {cut : ℤ → V → V} {K : Codec V α} {zero : α} {lmax mmax : ℕ}
    {dt tv : PDT} {ft : FTC} (ht : fileType dt ft tv) :
    ∀ (as : List (Alm α)) (rs : List (List (ℤ × α))), List.Forall₂ (fun a r => writeAlm zero a lmax mmax = ok r) as rs →
    ∀ (s : St V) (name : String) (hdus : List (Hdu V)), hdus ≠ [] → s.fptr = some ⟨name, hdus, hdus.length - 1, true⟩ →
    ∃ s', writeMany X cut K zero lmax mmax dt as s = (ok (), s') ∧ s'.disk = s.disk ∧
      s'.fptr = some ⟨name, hdus ++ rs.map (fun r => rowsHdu K ft r (almKeys K lmax mmax)),
        (hdus ++ rs.map (fun r => rowsHdu K ft r (almKeys K lmax mmax))).length - 1, true⟩ := by
  intro as rs h
  induction h with
  | nil => intro s name hdus h0 hf; exact ⟨s, rfl, rfl, by simpa using hf⟩
  | @cons a r as rs ha _ ih =>
    intro s name hdus h0 hf
    have hl := List.length_pos_of_ne_nil h0
    unfold writeMany
    rw [bind_run, writeAlmH_run hX ha ht hf rfl (by simp only; omega)]
    simp only
    rw [show hdus.length - 1 + 1 = hdus.length by omega, List.take_length, List.drop_length]
    obtain ⟨s', h1, h2, h3⟩ := ih (almSt s.disk name hdus [] tv (rowsHdu K ft r (almKeys K lmax mmax)) r.length) name
      (hdus ++ [rowsHdu K ft r (almKeys K lmax mmax)]) (by simp) (by simp [almSt])
    refine ⟨s', h1, h2, ?_⟩
    rw [h3]; simp

theorem zipRows_cols (K : Codec V α) (rows : List (ℤ × α)) :
    zipRows K (colI K rows) (colR K rows) (colM K rows) = rows.map (fun r => (K.toInt (K.ofInt r.1), stored K r.2)) := by
  unfold zipRows colI colR colM stored
  induction rows with
  | nil => rfl
  | cons r rows ih => simpa using ih

/-- Storing the values commutes with writing. -/
theorem writeFrom_scale {zero : α} {f : α → α} (hz : f zero = zero) {a : Alm α} {mmax : ℕ} :
    ∀ {n : ℕ} {p : ℕ × ℕ} {rows : List (ℤ × α)}, writeFrom zero a mmax n p = ok rows →
      writeFrom zero (a.scale f) mmax n p = ok (rows.map (fun r => (r.1, f r.2))) := by
  intro n
  induction n with
  | zero => intro p rows h; unfold writeFrom at h; injection h with h; subst h; rfl
  | succ n ih =>
    intro p rows h
    unfold writeFrom at h
    obtain ⟨v, hv, h⟩ := bind_eq_ok.mp h
    obtain ⟨r, hr, h⟩ := bind_eq_ok.mp h
    injection h with h; subst h
    have hp : padded zero (a.scale f) p = ok (f v) := by
      unfold padded at hv ⊢
      by_cases hc : (p.1 : ℤ) ≤ a.lmax ∧ (p.2 : ℤ) ≤ a.mmax
      · rw [if_pos hc] at hv
        rw [if_pos (show (p.1 : ℤ) ≤ (a.scale f).lmax ∧ (p.2 : ℤ) ≤ (a.scale f).mmax from hc)]
        unfold Alm.get at hv ⊢
        unfold Alm.scale
        simp only
        unfold rd at hv ⊢
        split at hv
        · rename_i hb
          injection hv with hv
          rw [dif_pos (by simpa using hb)]
          simp [hv]
        · simp at hv
      · rw [if_neg hc] at hv
        rw [if_neg (show ¬((p.1 : ℤ) ≤ (a.scale f).lmax ∧ (p.2 : ℤ) ≤ (a.scale f).mmax) from hc)]
        injection hv with hv; subst hv; rw [hz]
    unfold writeFrom
    rw [hp, ok_bind, ih hr, ok_bind]
    rfl

theorem scale_wf {a : Alm α} (h : a.WF) (f : α → α) : (a.scale f).WF := by
  obtain ⟨h1, h2, h3⟩ := h
  exact ⟨h1, h2, by simpa [Alm.scale] using h3⟩

/-- The indices of the rows written. -/
theorem writeAlm_index {zero : α} {a : Alm α} (ha : a.WF) {lw mw : ℕ} (hw : mw ≤ lw) {rows : List (ℤ × α)}
    (h : writeAlm zero a lw mw = ok rows) : ∀ r ∈ rows, 1 ≤ r.1 ∧ r.1 ≤ lw * lw + lw + mw + 1 := by
  obtain ⟨val, hval⟩ := exists_val zero a ha lw mw
  have hwalk := walk_enum hw 0
  simp only [Nat.add_zero, walk, List.append_nil] at hwalk
  have hwr : writeAlm zero a lw mw = ok ((enum lw mw).map (fun q => (code q.1 q.2, val q))) := by
    unfold writeAlm
    rw [writeFrom_walk zero a mw val _ _ (by rw [hwalk]; exact hval), hwalk]
  rw [hwr] at h
  injection h with h; subst h
  intro r hr
  obtain ⟨q, hq, rfl⟩ := List.mem_map.mp hr
  obtain ⟨q1, q2, q3⟩ := mem_enum.mp hq
  have := code_le_max (lmax := lw) (mmax := mw) (l := q.1) (m := q.2) ⟨by omega, by omega, by omega, by omega⟩
  refine ⟨?_, by exact_mod_cast this⟩
  simp only [code]
  have : (0 : ℤ) ≤ (q.1 : ℤ) * q.1 := by positivity
  omega

theorem nAlms_le {lw mw : ℕ} (h : mw ≤ lw) : nAlms lw mw ≤ lw * lw + lw + mw + 1 := by
  obtain ⟨d, rfl⟩ := Nat.exists_eq_add_of_le h
  unfold nAlms
  rw [Nat.add_sub_cancel_left]
  have h1 : (mw + 1) * (mw + 2) / 2 ≤ (mw + 1) * (mw + 1) := by
    apply Nat.div_le_of_le_mul
    nlinarith
  nlinarith [Nat.zero_le (mw * d), Nat.zero_le (d * d)]

/-- **C73 (coefficients, written).** Creating a file, writing any number of expansions through the handle and closing leaves exactly
one table per expansion on the disk, in order, with the limits as keys and one row per coefficient — independently of the chunk size
cfitsio recommends — and no other file is touched. -/
theorem C73_write_alm {X : Ext V} (hX : ∀ o, 1 ≤ X.rowsize o) {cut : ℤ → V → V} {K : Codec V α} {zero : α} {lw mw : ℕ} (hw : mw ≤ lw)
    (hsmall : lw * lw + lw + mw + 1 < 2147483648) (hint : ∀ i : ℤ, 0 ≤ i → i < 2147483648 → K.toInt (K.ofInt i) = i)
    {dt tv : PDT} {ft : FTC} (ht : fileType dt ft tv) {disk : String → Option (List (Hdu V))} {f : String} (hnew : disk f = none)
    {as : List (Alm α)} (has : ∀ a ∈ as, a.WF) :
    ∃ rs s, List.Forall₂ (fun a r => writeAlm zero a lw mw = ok r) as rs ∧
      writeFile X cut K zero lw mw dt f as (fresh disk) = (ok (), s) ∧ s.fptr = none ∧
      (∃ tabs, s.disk f = some (⟨.image 8 [] [], fun _ => none⟩ :: tabs) ∧ (∀ h ∈ tabs, GoodHdu h ∧ AlmHdu h) ∧
        tabs.map (viewTable K) = rs.map (fun r => (⟨some (lw : ℤ), some (mw : ℤ), r.map (fun x => (x.1, stored K x.2))⟩ : Table α))) ∧
      ∀ g, g ≠ f → s.disk g = disk g := by
  have hrs : ∃ rs, List.Forall₂ (fun a r => writeAlm zero a lw mw = ok r) as rs := by
    induction as with
    | nil => exact ⟨[], .nil⟩
    | cons a as ih =>
      obtain ⟨rs, h⟩ := ih (fun b hb => has b (List.mem_cons_of_mem _ hb))
      obtain ⟨r, _, hr, _⟩ := C28_write_read zero a (has a (by simp)) lw mw lw mw hw hw 1 (by omega)
      exact ⟨r :: rs, .cons hr h⟩
  obtain ⟨rs, hrs⟩ := hrs
  have hr1 : ∀ r ∈ rs, ∃ a ∈ as, writeAlm zero a lw mw = ok r := by
    intro r hr
    obtain ⟨i, hi, e⟩ := List.getElem_of_mem hr
    have hl := hrs.length_eq
    have := hrs.get (by omega) hi
    exact ⟨as[i], List.getElem_mem _, by rw [← e]; exact this⟩
  have ec : create f (fresh disk) = (ok (), (⟨disk, some ⟨f, [⟨.image 8 [] [], fun _ => none⟩], 0, true⟩, .image, [], [], 0⟩ : St V)) := by
    unfold create
    rw [cleanAll_bind, get_bind]
    have : closed (fresh disk) = fresh disk := rfl
    rw [this]
    simp only [fresh, hnew, setFile_bind]
    rfl
  obtain ⟨s', h1, h2, h3⟩ := writeMany_run hX (cut := cut) (K := K) ht as rs hrs
    (⟨disk, some ⟨f, [⟨.image 8 [] [], fun _ => none⟩], 0, true⟩, .image, [], [], 0⟩ : St V) f [⟨.image 8 [] [], fun _ => none⟩] (by simp) rfl
  set tabs := rs.map (fun r => rowsHdu K ft r (almKeys K lw mw)) with htabs
  refine ⟨rs, closed s', hrs, ?_, closed_fptr _, ⟨tabs, ?_, ?_, ?_⟩, ?_⟩
  · unfold writeFile
    rw [bind_run, ec]
    simp only
    rw [bind_run, h1]
    simp only [cleanAll_run]
  · unfold closed
    rw [cleaned_fptr, h3]
    simp
  · intro h hh
    obtain ⟨r, hr, rfl⟩ := List.mem_map.mp hh
    obtain ⟨a, ha, hwa⟩ := hr1 r hr
    have hlen : r.length = nAlms lw mw := writeFrom_length hwa
    have hle := nAlms_le hw
    refine ⟨?_, true, r.length, _, _, _, [], rfl, ?_, ⟨by simp, ht.2.1, ht.2.1⟩, ⟨by simp, by simp, by simp⟩, ?_, ?_⟩
    · unfold GoodHdu rowsHdu almHdu
      simp only
      intro c hc
      simp only [List.mem_cons, List.not_mem_nil, or_false] at hc
      rcases hc with rfl | rfl | rfl <;> refine ⟨?_, by simp⟩ <;> simp [FCol.per, colI, colR, colM, ht.2.1]
    · intro c hc
      have hne : ft ≠ .other := by
        intro e
        have := ht.2.2
        rw [e] at this; simp [ftc2type] at this
      simp only [List.mem_cons, List.not_mem_nil, or_false] at hc
      rcases hc with rfl | rfl | rfl
      · simp
      · exact hne
      · exact hne
    · constructor <;> simp [colI, colR, colM]
    · simp only [colI, List.length_map]; omega
  · rw [htabs, List.map_map]
    apply List.map_congr_left
    intro r hr
    obtain ⟨a, ha, hwa⟩ := hr1 r hr
    have hidx := writeAlm_index (has a ha) hw hwa
    have hle : lw ≤ lw * lw + lw + mw + 1 := by nlinarith [Nat.zero_le (lw * lw)]
    have hle2 : mw ≤ lw * lw + lw + mw + 1 := by nlinarith [Nat.zero_le (lw * lw)]
    simp only [Function.comp, viewTable, rowsHdu, almHdu, almKeys]
    simp only [tableRows, zipRows_cols]
    congr 1
    · simp only [show ("MAX-LPOL" : String) ≠ "MAX-MPOL" by decide, if_false, if_true, Option.map_some]
      rw [hint _ (by omega) (by omega)]
    · simp only [if_true, Option.map_some]
      rw [hint _ (by omega) (by omega)]
    · apply List.map_congr_left
      intro x hx
      obtain ⟨g1, g2⟩ := hidx x hx
      rw [hint _ (by omega) (by omega)]
  · intro g hg
    unfold closed
    rw [cleaned_fptr, h3]
    simp only [if_true, if_neg hg, h2]

/-- **C73 (round trip).** Writing expansions to a new file through the handle, closing it, opening it again with a new handle and
reading HDU `k+2` with any limits gives the `k`-th expansion as stored (cut off or padded with zeros, C28), for all chunk sizes cfitsio
may recommend to the writer (`X`) and the reader (`Y`). -/
theorem C73_write_read {X Y : Ext V} (hX : ∀ o, 1 ≤ X.rowsize o) (hY : ∀ o, 1 ≤ Y.rowsize o) {cut : ℤ → V → V} {K : Codec V α} {zero : α}
    {lw mw : ℕ} (hw : mw ≤ lw) (hsmall : lw * lw + lw + mw + 1 < 2147483648)
    (hint : ∀ i : ℤ, 0 ≤ i → i < 2147483648 → K.toInt (K.ofInt i) = i) (hzero : stored K zero = zero)
    {dt tv : PDT} {ft : FTC} (ht : fileType dt ft tv) {disk : String → Option (List (Hdu V))}
    (hd : ∀ f hs, disk f = some hs → GoodFile hs) {f : String} (hlen : f.length < 1025) (hnew : disk f = none)
    {as : List (Alm α)} (has : ∀ a ∈ as, a.WF) :
    ∃ s, writeFile X cut K zero lw mw dt f as (fresh disk) = (ok (), s) ∧
      ∀ (k : ℕ) (a : Alm α), as[k]? = some a → ∀ (t : PDT), t ≠ .string → colType t = true → ∀ (lr mr : ℕ), mr ≤ lr →
        ∃ b, (((openFile f >>= fun _ => gotoHdu Y ((k + 2 : ℕ) : ℤ)) >>= fun _ => readAlmH Y K zero t lr mr : M V (Alm α)) (fresh s.disk)).1 = ok b ∧
          b.WF ∧ b.lmax = lr ∧ b.mmax = mr ∧
          ∀ l m, Valid lr mr l m → b.get l m = roundTripSpec zero (a.scale (stored K)) lw mw l m := by
  obtain ⟨rs, s, hrs, hrun, -, ⟨tabs, htd, htg, htv⟩, hoth⟩ := C73_write_alm hX (cut := cut) (zero := zero) hw hsmall hint ht hnew has
  refine ⟨s, hrun, ?_⟩
  intro k a hk t hts htt lr mr hr
  have hgood : ∀ g hs, s.disk g = some hs → GoodFile hs := by
    intro g hs hg
    by_cases e : g = f
    · subst e
      rw [htd] at hg; injection hg with hg; subst hg
      refine ⟨by simp, ?_⟩
      intro h hh
      rcases List.mem_cons.mp hh with rfl | hh
      · simp [GoodHdu, prod]
      · exact (htg h hh).1
    · rw [hoth g e] at hg; exact hd g hs hg
  have hkl : k < as.length := by
    by_contra hc
    rw [List.getElem?_eq_none (by omega)] at hk; simp at hk
  have hrl := hrs.length_eq
  have htl : tabs.length = rs.length := by have := congrArg List.length htv; simpa using this
  have hak : as[k] = a := by rw [List.getElem?_eq_getElem hkl] at hk; injection hk
  have hwk : writeAlm zero a lw mw = ok rs[k] := by
    have := hrs.get hkl (by omega)
    rw [← hak]; exact this
  obtain ⟨ts, ht1, ht2, ht3, ht4, ht5, -⟩ := open_goto (X := Y) hgood hlen htd (h1 := ⟨.image 8 [] [], fun _ => none⟩) rfl trivial
    (k := k + 2) (by omega) (h := tabs[k]'(by omega)) (by simp [htl, ← hrl, hkl])
    (almHdu_supported (htg _ (List.getElem_mem _)).2)
  obtain ⟨n, ci, cr, cm, hat, hrows⟩ := almHdu_table ht4 (h := tabs[k]'(by omega)) (by unfold OpenFile.hdu?; simp [htl, ← hrl, hkl])
    (htg _ (List.getElem_mem _)).2 K
  obtain ⟨chunk, hc, hrd⟩ := readAlmH_run hY hts htt ht2 ht3 hat (K := K) (zero := zero) (lmax := (lr : ℤ)) (mmax := (mr : ℤ))
  have hvk : (viewTable K (tabs[k]'(by omega))).rows = (rs[k]).map (fun x => (x.1, stored K x.2)) := by
    have := congrArg (fun l => l[k]?) htv
    simp only [List.getElem?_map] at this
    rw [List.getElem?_eq_getElem (by omega), List.getElem?_eq_getElem (by omega)] at this
    simp only [Option.map_some, Option.some.injEq] at this
    rw [this]
  have hws : writeAlm zero (a.scale (stored K)) lw mw = ok ((rs[k]).map (fun x => (x.1, stored K x.2))) := writeFrom_scale hzero hwk
  obtain ⟨rows', b, g1, g2, g3, g4, g5, g6⟩ := C28_write_read zero (a.scale (stored K)) (scale_wf (has a (List.mem_of_getElem? hk)) _) lw mw lr mr hw hr chunk hc
  rw [hws] at g1; injection g1 with g1; subst g1
  refine ⟨b, ?_, g3, g4, g5, g6⟩
  rw [bind_run, ht1]
  simp only
  rw [hrd, ← hrows, hvk, g2]

/-- Files of integers; a complex number is a pair. -/
def demoK : Codec ℤ (ℤ × ℤ) := ⟨id, id, Prod.mk, Prod.fst, Prod.snd⟩
/-- cfitsio recommending `r` rows per access. -/
def demoX (r : ℤ) : Ext ℤ := ⟨fun o _ => (o.cur, .bin), 0, fun _ => r⟩
/-- Two expansions, with limits (2,1) and (1,0). -/
def demoAlms : List (Alm (ℤ × ℤ)) := [⟨2, 1, [(1, 0), (2, 0), (3, 0), (4, 5), (6, 7)]⟩, ⟨1, 0, [(8, 0), (9, 0)]⟩]

/-- A case: both are written with limits (2,1), two rows at a time; the second is read with limits (1,1), three rows at a time. -/
example : ∃ s b, writeFile (demoX 2) (fun _ v => v) demoK (0, 0) 2 1 .float64 "a.fits" demoAlms (fresh (fun _ => none)) = (ok (), s) ∧
    (((openFile "a.fits" >>= fun _ => gotoHdu (demoX 3) ((1 + 2 : ℕ) : ℤ)) >>= fun _ =>
      readAlmH (demoX 3) demoK (0, 0) .float64 (1 : ℕ) (1 : ℕ)) (fresh s.disk)).1 = ok b ∧ b = ⟨1, 1, [(8, 0), (9, 0), (0, 0)]⟩ := by
  have hwf : ∀ a ∈ demoAlms, a.WF := by decide +kernel
  obtain ⟨s, h1, h2⟩ := C73_write_read (X := demoX 2) (Y := demoX 3) (by intro o; simp [demoX]) (by intro o; simp [demoX])
    (cut := fun _ v => v) (K := demoK) (zero := (0, 0)) (lw := 2) (mw := 1) (by omega) (by omega) (by intros; rfl) rfl fileType_double
    (disk := fun _ => none) (by simp) (f := "a.fits") (by decide) rfl hwf
  obtain ⟨b, hb, hwfb, hl, hm, hg⟩ := h2 1 ⟨1, 0, [(8, 0), (9, 0)]⟩ rfl .float64 (by decide) rfl 1 1 le_rfl
  refine ⟨s, b, h1, hb, ?_⟩
  refine Alm.ext_get hwfb (by decide +kernel) hl hm ?_
  intro l m hv
  rw [hl, hm] at hv
  rw [hg l m hv]
  obtain ⟨v1, v2, v3, v4⟩ := hv
  simp only [Nat.cast_one] at v2 v4
  have : (l = 0 ∧ m = 0) ∨ (l = 1 ∧ m = 0) ∨ (l = 1 ∧ m = 1) := by omega
  rcases this with ⟨rfl, rfl⟩ | ⟨rfl, rfl⟩ | ⟨rfl, rfl⟩ <;> decide +kernel

end Verif.Fh
