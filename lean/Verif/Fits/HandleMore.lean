import Verif.Fits.HandleProps

/-!
# C73: keys, and writing images
-/

namespace Verif.Fh
open Verif Res
variable {V : Type}

/-! ## Keys -/

/-- What is open: the current HDU has these keys. -/
def CurKeys (s : St V) (keys : String → Option V) : Prop :=
  ∃ o h, s.fptr = some o ∧ o.hdu? = some h ∧ h.keys = keys

theorem hdu_setHdu {o : OpenFile V} {h h' : Hdu V} (hh : o.hdu? = some h) : (o.setHdu h').hdu? = some h' := by
  unfold OpenFile.hdu? OpenFile.setHdu at *
  have : o.cur < o.hdus.length := by
    by_contra hc
    rw [List.getElem?_eq_none (by omega)] at hh; simp at hh
  simp [this]

/-- **C73 (keys, read).** In every state reached by a history that did not throw: a key is found exactly if the current HDU has
it, and its value is the file's. -/
theorem C73_keys_partial {X : Ext V} {cut : ℤ → V → V} {disk : String → Option (List (Hdu V))} {s : St V}
    (hd : ∀ f hs, disk f = some hs → GoodFile hs) (h : Hist X cut true (fresh disk) s) {keys : String → Option V} (hk : CurKeys s keys)
    (name : String) {t : PDT} (ht : keyType t = true) :
    keyPresent name s = (ok (keys name).isSome, s) ∧
    getKey name t s = (match keys name with | some v => (ok v, s) | none => (throw "fitshandle::get_key(): key not found", s)) := by
  obtain ⟨hs, hg⟩ := hist_sync h (fresh_good hd) (fresh_synced true disk)
  obtain ⟨o, hh, h1, h2, rfl⟩ := hk
  have hcon : connected s = true := by
    unfold Synced at hs
    rw [h1] at hs
    rcases hs with hs | ⟨h', hh', hk⟩
    · exact absurd hs.1 (by simp)
    · rw [h2] at hh'; injection hh' with e; subst e
      unfold connected
      rw [hk.1]
      rcases hb : hh.body with ⟨_, _, _⟩ | ⟨b, _, _⟩ | _
      · rfl
      · cases b <;> rfl
      · rfl
  constructor
  · unfold keyPresent
    rw [get_bind, req_bind, if_pos hcon, file_bind, h1]
    simp only [h2, Option.bind_some, pure_run]
  · unfold getKey
    rw [get_bind, req_bind, if_pos hcon, if_pos ht, file_bind, h1]
    simp only [h2, Option.bind_some]
    cases hh.keys name <;> rfl

/-- **C73 (keys, written).** A `set_key` that returns gives the key the value and changes no other key; a `delete_key` that
returns removes the key and no other.  Neither touches the data. -/
theorem C73_set_key {name : String} {v : V} {t : PDT} {s s' : St V} {keys : String → Option V} (hk : CurKeys s keys)
    (hr : setKey name v t s = (ok (), s')) :
    CurKeys s' (fun k => if k = name then some v else keys k) ∧ s'.disk = s.disk ∧
      (∀ b n cols, CurTable s b n cols → CurTable s' b n cols) ∧ ∀ axes pix, CurImage s axes pix → CurImage s' axes pix := by
  obtain ⟨o, hh, h1, h2, rfl⟩ := hk
  unfold setKey at hr
  rw [get_bind, req_bind] at hr
  split at hr
  · split at hr
    · rw [file_bind, h1] at hr
      simp only [h2] at hr
      split at hr
      · rw [setFile_run] at hr
        injection hr with _ hr
        subst hr
        have key : (o.setHdu { hh with keys := fun k => if k = name then some v else hh.keys k }).hdu? =
            some { hh with keys := fun k => if k = name then some v else hh.keys k } := hdu_setHdu h2
        refine ⟨⟨_, _, rfl, key, rfl⟩, rfl, ?_, ?_⟩
        · rintro b n cols ⟨o', k', g1, g2⟩
          rw [h1] at g1; injection g1 with g1; subst g1
          rw [h2] at g2; injection g2 with g2; subst g2
          exact ⟨_, _, rfl, key⟩
        · rintro ax pix ⟨o', b, k', g1, g2⟩
          rw [h1] at g1; injection g1 with g1; subst g1
          rw [h2] at g2; injection g2 with g2; subst g2
          exact ⟨_, _, _, rfl, key⟩
      · simp [lift_run] at hr
    · simp [lift_run] at hr
  · simp at hr

theorem C73_delete_key {name : String} {s s' : St V} {keys : String → Option V} (hk : CurKeys s keys)
    (hr : deleteKey name s = (ok (), s')) :
    CurKeys s' (fun k => if k = name then none else keys k) ∧ (keys name).isSome ∧ s'.disk = s.disk ∧
      (∀ b n cols, CurTable s b n cols → CurTable s' b n cols) ∧ ∀ axes pix, CurImage s axes pix → CurImage s' axes pix := by
  obtain ⟨o, hh, h1, h2, rfl⟩ := hk
  unfold deleteKey at hr
  rw [get_bind, req_bind] at hr
  split at hr
  · rw [file_bind, h1] at hr
    simp only [h2] at hr
    split at hr
    · rename_i hcond
      rw [setFile_run] at hr
      injection hr with _ hr
      subst hr
      have key : (o.setHdu { hh with keys := fun k => if k = name then none else hh.keys k }).hdu? =
          some { hh with keys := fun k => if k = name then none else hh.keys k } := hdu_setHdu h2
      refine ⟨⟨_, _, rfl, key, rfl⟩, hcond.2, rfl, ?_, ?_⟩
      · rintro b n cols ⟨o', k', g1, g2⟩
        rw [h1] at g1; injection g1 with g1; subst g1
        rw [h2] at g2; injection g2 with g2; subst g2
        exact ⟨_, _, rfl, key⟩
      · rintro ax pix ⟨o', b, k', g1, g2⟩
        rw [h1] at g1; injection g1 with g1; subst g1
        rw [h2] at g2; injection g2 with g2; subst g2
        exact ⟨_, _, _, rfl, key⟩
    · simp [lift_run] at hr
  · simp at hr

/-! ## Images -/

/-- **C73 (pixels).** `read_subimage` of `n` pixels from an offset delivers these pixels, or throws if the image ends before. -/
theorem C73_pixels_partial {X : Ext V} {cut : ℤ → V → V} {disk : String → Option (List (Hdu V))} {s : St V}
    (hd : ∀ f hs, disk f = some hs → GoodFile hs) (h : Hist X cut true (fresh disk) s) {axes : List ℕ} {pix : List V}
    (hi : CurImage s axes pix) {t : PDT} (ht : colType t = true) (n offset : ℕ) :
    readSubimage n t offset s =
      if offset + n ≤ pix.length ∨ n = 0 then (ok ((pix.drop offset).take n), s) else (throw "FITS error", s) := by
  obtain ⟨hs, hg⟩ := hist_sync h (fresh_good hd) (fresh_synced true disk)
  obtain ⟨i1, i2⟩ := synced_image hs hi
  obtain ⟨o, b, keys, h1, h2⟩ := hi
  obtain ⟨c, hc⟩ := colType_ftc ht
  unfold readSubimage
  rw [get_bind, req_bind, i1, if_pos rfl, hc, lift_ok_bind, file_bind, h1]
  simp only [lift_run]
  unfold cfReadImg
  rw [h2]
  simp only
  by_cases hn : n = 0
  · subst hn; simp
  · rw [if_neg (by omega), if_neg (by omega)]
    have e : (1 + (offset : ℤ) - 1) = offset := by ring
    rw [e]
    by_cases hle : offset + n ≤ pix.length
    · rw [if_pos (by exact_mod_cast hle), if_pos (Or.inl hle)]; simp
    · rw [if_neg (by intro hx; exact hle (by exact_mod_cast hx)), if_neg (by simp [hle, hn])]

/-- The image after a write of pixels that returned. -/
theorem writeImg_spec {o o' : OpenFile V} {b : ℤ} {axes : List ℕ} {pix ys : List V} {keys : String → Option V} {offset : ℕ}
    (h2 : o.hdu? = some ⟨.image b axes pix, keys⟩) (hw : cfWriteImg o (1 + (offset : ℤ)) ys = ok o') (hy : ys ≠ []) :
    offset + ys.length ≤ pix.length ∧
      o'.hdu? = some ⟨.image b axes (pix.take offset ++ ys ++ pix.drop (offset + ys.length)), keys⟩ := by
  unfold cfWriteImg at hw
  rw [h2] at hw
  simp only at hw
  have e : (1 + (offset : ℤ) - 1) = offset := by ring
  split at hw
  · simp at hw
  · rw [if_neg (by simpa using hy), if_neg (by omega), e] at hw
    split at hw
    · rename_i hle
      injection hw with hw; subst hw
      refine ⟨by exact_mod_cast hle, ?_⟩
      rw [hdu_setHdu h2]
      simp
    · simp at hw

/-- **C73 (pixels, written).** A `write_subimage` that returns replaces exactly the pixels from the offset on. -/
theorem C73_write_pixels {s s' : St V} {axes : List ℕ} {pix : List V} (hi : CurImage s axes pix) {ys : List V} (hy : ys ≠ [])
    {t : PDT} {offset : ℕ} (hw : writeSubimage ys t offset s = (ok (), s')) :
    offset + ys.length ≤ pix.length ∧ CurImage s' axes (pix.take offset ++ ys ++ pix.drop (offset + ys.length)) ∧ s'.disk = s.disk := by
  obtain ⟨o, b, keys, h1, h2⟩ := hi
  unfold writeSubimage at hw
  rw [get_bind, req_bind] at hw
  split at hw
  · cases hc : type2ftc t with
    | ok c =>
      rw [hc, lift_ok_bind, file_bind, h1] at hw
      simp only at hw
      cases ho : cfWriteImg o (1 + (offset : ℤ)) ys with
      | ok o' =>
        rw [ho, lift_ok_bind, setFile_run] at hw
        injection hw with _ hw; subst hw
        obtain ⟨g1, g2⟩ := writeImg_spec h2 ho hy
        exact ⟨g1, ⟨o', b, keys, rfl, g2⟩, rfl⟩
      | throw m => rw [ho, lift_throw_bind] at hw; simp at hw
      | ub m => rw [ho, lift_ub_bind] at hw; simp at hw
    | throw m => rw [hc, lift_throw_bind] at hw; simp at hw
    | ub m => rw [hc, lift_ub_bind] at hw; simp at hw
  · simp at hw

/-- **C73 (image, written).** A `write_image` that returns leaves the array in the file, whose dimensions were those of the image;
any other dimensions are rejected. -/
theorem C73_write_image_partial {X : Ext V} {cut : ℤ → V → V} {disk : String → Option (List (Hdu V))} {s : St V}
    (hd : ∀ f hs, disk f = some hs → GoodFile hs) (h : Hist X cut true (fresh disk) s) {axes : List ℕ} {pix : List V}
    (hi : CurImage s axes pix) {ys : List V} {t : PDT} {s1 s2 : ℕ} (hlen : ys.length = s1 * s2) :
    (∀ s', writeImage2 ys t s1 s2 s = (ok (), s') → axes = [s1, s2] ∧ CurImage s' axes ys ∧ s'.disk = s.disk ∧
      Hist X cut true (fresh disk) s' ∧ readImage2 s' = (ok ys, s')) ∧
    (axes ≠ [s1, s2] → ∃ m, writeImage2 ys t s1 s2 s = (throw m, s)) := by
  obtain ⟨hs, hg⟩ := hist_sync h (fresh_good hd) (fresh_synced true disk)
  obtain ⟨i1, i2⟩ := synced_image hs hi
  have hi0 := hi
  obtain ⟨o, b, keys, h1, h2⟩ := hi
  have hgc : pix.length = prod axes := good_cur hg h1 h2
  constructor
  · intro s' hw
    have hw0 := hw
    unfold writeImage2 at hw
    rw [get_bind, req_bind, i1, if_pos rfl, i2] at hw
    rcases axes with _ | ⟨a, _ | ⟨c, _ | ⟨d, rest⟩⟩⟩
    · simp [lift_run] at hw
    · simp [lift_run] at hw
    · simp only [req_bind] at hw
      split at hw
      · rename_i ha
        split at hw
        · rename_i hc
          have ha : a = s1 := by simpa using ha
          have hc : c = s2 := by simpa using hc
          subst ha; subst hc
          cases ht : type2ftc t with
          | ok ct =>
            rw [ht, lift_ok_bind, file_bind, h1] at hw
            simp only at hw
            rw [← hlen, List.take_length] at hw
            cases ho : cfWriteImg o 1 ys with
            | ok o' =>
              rw [ho, lift_ok_bind, setFile_run] at hw
              injection hw with _ hw
              have hcur : CurImage s' [a, c] ys ∧ s'.disk = s.disk := by
                subst hw
                by_cases hy : ys = []
                · subst hy
                  unfold cfWriteImg at ho
                  rw [h2] at ho
                  simp only at ho
                  split at ho
                  · simp at ho
                  · rw [if_pos (by simp)] at ho
                    injection ho with ho; subst ho
                    have : pix = [] := by
                      apply List.eq_nil_of_length_eq_zero
                      rw [hgc]
                      simpa [prod] using hlen.symm
                    subst this
                    exact ⟨⟨o, b, keys, rfl, h2⟩, rfl⟩
                · obtain ⟨g1, g2⟩ := writeImg_spec (offset := 0) h2 (by simpa using ho) hy
                  refine ⟨⟨o', b, keys, rfl, ?_⟩, rfl⟩
                  rw [g2]
                  have : pix.length ≤ 0 + ys.length := by rw [hgc, hlen]; simp [prod]
                  rw [List.drop_eq_nil_of_le this]
                  simp
              have hist' : Hist X cut true (fresh disk) s' :=
                .snoc h (op := .writeImg ys t a c) (r := ok ()) hw0 trivial (fun _ => rfl) trivial
              exact ⟨rfl, hcur.1, hcur.2, hist', (C73_image_partial hd hist' hcur.1).2.1 rfl⟩
            | throw m => rw [ho, lift_throw_bind] at hw; simp at hw
            | ub m => rw [ho, lift_ub_bind] at hw; simp at hw
          | throw m => rw [ht, lift_throw_bind] at hw; simp at hw
          | ub m => rw [ht, lift_ub_bind] at hw; simp at hw
        · simp at hw
      · simp at hw
    · simp [lift_run] at hw
  · intro hne
    unfold writeImage2
    rw [get_bind, req_bind, i1, if_pos rfl, i2]
    rcases axes with _ | ⟨a, _ | ⟨c, _ | ⟨d, rest⟩⟩⟩
    · exact ⟨_, rfl⟩
    · exact ⟨_, rfl⟩
    · simp only [req_bind]
      by_cases ha : a = s1
      · by_cases hc : c = s2
        · exact absurd (by rw [ha, hc]) hne
        · rw [if_pos (by simpa using ha), if_neg (by simpa using hc)]; exact ⟨_, rfl⟩
      · rw [if_neg (by simpa using ha)]; exact ⟨_, rfl⟩
    · exact ⟨_, rfl⟩

/-! ## A case -/

/-- Creating an image of two by three pixels, writing it, replacing two pixels and setting a key. -/
example : ∃ s : St ℕ, Hist demoExt (fun _ v => v) true (fresh (fun _ => none)) s ∧ CurImage s [2, 3] [1, 2, 8, 9, 5, 6] ∧
    getKey "K" .int32 s = (ok 7, s) ∧ keyPresent "L" s = (ok false, s) := by
  refine ⟨_, .snoc (.snoc (.snoc (.snoc (.snoc (.nil _) (op := .createF "f") (r := ok ()) rfl trivial (fun _ => rfl) trivial)
    (op := .image .float64 [2, 3]) (r := ok ()) rfl trivial (fun _ => rfl) trivial)
    (op := .writeImg [1, 2, 3, 4, 5, 6] .float64 2 3) (r := ok ()) rfl trivial (fun _ => rfl) trivial)
    (op := .writeSub [8, 9] .float64 2) (r := ok ()) rfl trivial (fun _ => rfl) trivial)
    (op := .setKey "K" 7 .int32) (r := ok ()) rfl trivial (fun _ => rfl) trivial, ⟨_, _, _, rfl, rfl⟩, rfl, rfl⟩

end Verif.Fh
