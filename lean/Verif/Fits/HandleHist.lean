import Verif.Fits.HandleSteps

/-!
# The FITS file handle: every history
-/

namespace Verif.Fh
open Verif Res
variable {V : Type}

/-- The methods that change the handle or the file. -/
inductive Op (V : Type)
  | openF (f : String) | createF (f : String) | close | goto (k : ℤ)
  | bintab (cols : List ColInfo) | asctab (cols : List ColInfo) | image (t : PDT) (axes : List ℕ)
  | write (col : ℤ) (ys : List V) (t : PDT) (off : ℤ)
  | setKey (n : String) (v : V) (t : PDT) | delKey (n : String)
  | writeImg (ys : List V) (t : PDT) (s1 s2 : ℕ) | writeSub (ys : List V) (t : PDT) (off : ℤ)

/-- Call of a method. -/
def call (X : Ext V) (cut : ℤ → V → V) : Op V → M V Unit
  | .openF f => openFile f
  | .createF f => create f
  | .close => cleanAll
  | .goto k => gotoHdu X k
  | .bintab cols => insertBintab cols
  | .asctab cols => insertAsctab cols
  | .image t axes => insertImage X t axes
  | .write col ys t off => writeColumn X cut col ys t off
  | .setKey n v t => setKey n v t
  | .delKey n => deleteKey n
  | .writeImg ys t s1 s2 => writeImage2 ys t s1 s2
  | .writeSub ys t off => writeSubimage ys t off

/-- Calls excluded from the guarantee: a move to a missing HDU, a write that fails or writes nothing, and a write of numbers
to a column with several elements per row. -/
def Tame (s : St V) (op : Op V) (r : Res Unit) : Prop :=
  match op with
  | .goto _ => r = ok ()
  | .write col ys t _ => r = ok () ∧ ys ≠ [] ∧ (t = .string ∨ ∀ i, colAt s col = ok i → i.repcount = 1)
  | _ => True

/-- The methods called one after the other; exceptions are caught and the program goes on.  `full`: there are none. -/
inductive Hist (X : Ext V) (cut : ℤ → V → V) (full : Bool) : St V → St V → Prop
  | nil (s) : Hist X cut full s s
  | snoc {s s' s'' op r} : Hist X cut full s s' → call X cut op s' = (r, s'') → r.NoUB → (full = true → r = ok ()) →
      Tame s' op r → Hist X cut full s s''

/-! ## Steps -/

theorem synced_mk {full : Bool} {s : St V} {o : OpenFile V} {h : Hdu V} (hf : s.fptr = some o) (hh : o.hdu? = some h)
    (hk : Knows full s h) : Synced full s := by
  unfold Synced; rw [hf]; exact Or.inr ⟨h, hh, hk⟩

theorem synced_silent {full : Bool} {s : St V} (hs : Silent s) (hf : s.fptr = none ∨ full = false) : Synced full s := by
  unfold Synced
  cases h : s.fptr with
  | none => exact hs
  | some o => rcases hf with hf | hf
              · rw [h] at hf; simp at hf
              · exact Or.inl ⟨hf, hs⟩

/-- After `init_data` the handle describes the current HDU. -/
theorem initData_sync {full : Bool} {s s' : St V} {r : Res Unit} (hg : GoodSt s) {o : OpenFile V} (hf : s.fptr = some o)
    (h : initData s = (r, s')) (hr : full = true → r = ok ()) : Synced full s' ∧ GoodSt s' := by
  obtain ⟨_, hc⟩ := hg.2 o hf
  obtain ⟨hd, hhd⟩ : ∃ hd, o.hdu? = some hd := ⟨_, List.getElem?_eq_getElem hc⟩
  obtain ⟨r', t, h1, h2, h3, h4, h5, _⟩ := initData_run s hf hhd
  rw [h] at h1
  injection h1 with e1 e2
  subst e1; subst e2
  refine ⟨synced_mk (h2.trans hf) hhd ?_, ?_⟩
  · cases full with
    | false => exact h4
    | true => exact h5 (hr rfl)
  · unfold GoodSt; rw [h2, h3]; exact hg

theorem initData_noub {s : St V} (hg : GoodSt s) {o : OpenFile V} (hf : s.fptr = some o) : (initData s).1.NoUB := by
  obtain ⟨_, hc⟩ := hg.2 o hf
  obtain ⟨r', t, h1, -, -, -, -, h6⟩ := initData_run s hf (List.getElem?_eq_getElem hc)
  rw [h1]; exact h6

/-- A state with another open file. -/
theorem good_withFile {s : St V} (hg : GoodSt s) {o : OpenFile V} (h1 : GoodFile o.hdus) (h2 : o.cur < o.hdus.length) :
    GoodSt { s with fptr := some o } :=
  ⟨hg.1, fun o' ho' => by injection ho' with e; subst e; exact ⟨h1, h2⟩⟩

theorem openFile_sync {full : Bool} {s s' : St V} {f : String} {r : Res Unit} (hg : GoodSt s) (hs : Synced full s)
    (h : openFile f s = (r, s')) (hr : full = true → r = ok ()) : Synced full s' ∧ GoodSt s' := by
  have hsil := closed_silent hs
  have hcg := closed_good hg
  have hcf := closed_fptr s
  unfold openFile at h
  rw [cleanAll_bind] at h
  by_cases hlen : 1025 ≤ f.length
  · rw [if_pos hlen, lift_run] at h
    injection h with e1 e2; subst e2
    exact ⟨synced_silent hsil (Or.inl hcf), hcg⟩
  · rw [if_neg hlen, get_bind] at h
    cases hd : (closed s).disk f with
    | none =>
      rw [hd] at h
      injection h with e1 e2; subst e2
      exact ⟨synced_silent hsil (Or.inl hcf), hcg⟩
    | some hdus =>
      rw [hd] at h
      simp only [setFile_bind] at h
      have hgf := hcg.1 f hdus hd
      refine initData_sync (good_withFile hcg (o := ⟨f, hdus, 0, false⟩) hgf ?_) rfl h hr
      exact List.length_pos_of_ne_nil hgf.1

theorem create_sync {full : Bool} {s s' : St V} {f : String} {r : Res Unit} (hg : GoodSt s) (hs : Synced full s)
    (h : create f s = (r, s')) (hr : full = true → r = ok ()) : Synced full s' ∧ GoodSt s' := by
  have hsil := closed_silent hs
  have hcg := closed_good hg
  have hcf := closed_fptr s
  unfold create at h
  rw [cleanAll_bind, get_bind] at h
  cases hd : (closed s).disk f with
  | some hdus =>
    rw [hd] at h
    injection h with e1 e2; subst e2
    exact ⟨synced_silent hsil (Or.inl hcf), hcg⟩
  | none =>
    rw [hd] at h
    simp only [setFile_bind] at h
    refine initData_sync (good_withFile hcg (o := ⟨f, [⟨.image 8 [] [], fun _ => none⟩], 0, true⟩) ⟨by simp, ?_⟩ (by simp)) rfl h hr
    intro x hx
    simp only [List.mem_singleton] at hx
    subst hx
    simp [GoodHdu, prod]

theorem gotoHdu_sync {X : Ext V} {full : Bool} {s s' : St V} {k : ℤ} {r : Res Unit} (hg : GoodSt s) (hs : Synced full s)
    (h : gotoHdu X k s = (r, s')) (hr : r = ok ()) : Synced full s' ∧ GoodSt s' := by
  subst hr
  unfold gotoHdu at h
  rw [file_bind] at h
  cases hf : s.fptr with
  | none => rw [hf] at h; simp at h
  | some o =>
    rw [hf] at h
    simp only at h
    by_cases hc : (o.cur : ℤ) + 1 ≠ k
    · rw [if_pos hc] at h
      by_cases hk : 1 ≤ k ∧ k ≤ o.hdus.length
      · rw [if_pos hk, setFile_bind] at h
        obtain ⟨g1, g2⟩ := hg.2 o hf
        refine initData_sync (good_withFile hg (o := { o with cur := (k - 1).toNat }) g1 ?_) rfl h (fun _ => rfl)
        show (k - 1).toNat < o.hdus.length
        omega
      · rw [if_neg hk, modify_bind, lift_run] at h
        simp at h
    · rw [if_neg hc, pure_run] at h
      injection h with e1 e2; subst e2
      exact ⟨hs, hg⟩

/-- The common end of the `insert_…` methods. -/
theorem insert_sync {full : Bool} {s s' : St V} {r : Res Unit} {b : Res (Body V)} (hg : GoodSt s) (hs : Synced full s)
    (hb : ∀ x, b = ok x → GoodHdu ⟨x, fun _ => none⟩)
    (h : (do cleanData
             let x ← lift b
             let o ← file
             let o' ← lift (cfInsert o x)
             setFile o'
             initData : M V Unit) s = (r, s')) (hr : full = true → r = ok ()) (hu : r.NoUB) :
    Synced full s' ∧ GoodSt s' := by
  have hsil := cleaned_silent hs
  have hcg := cleaned_good hg
  rw [cleanData_bind] at h
  cases b with
  | ub w => rw [lift_ub_bind] at h; injection h with e1 e2; subst e1; exact absurd hu (by simp [NoUB])
  | throw m =>
    rw [lift_throw_bind] at h
    injection h with e1 e2; subst e1; subst e2
    refine ⟨synced_silent hsil (Or.inr ?_), hcg⟩
    cases full with
    | false => rfl
    | true => exact absurd (hr rfl) (by simp)
  | ok x =>
    rw [lift_ok_bind, file_bind] at h
    cases hf : (cleaned s).fptr with
    | none => rw [hf] at h; injection h with e1 e2; subst e1; exact absurd hu (by simp [NoUB])
    | some o =>
      rw [hf] at h
      simp only at h
      unfold cfInsert at h
      by_cases hrw : o.rw = false
      · rw [if_pos hrw, lift_throw_bind] at h
        injection h with e1 e2; subst e1; subst e2
        refine ⟨synced_silent hsil (Or.inr ?_), hcg⟩
        cases full with
        | false => rfl
        | true => exact absurd (hr rfl) (by simp)
      · rw [if_neg hrw, lift_ok_bind, setFile_bind] at h
        obtain ⟨g1, g2⟩ := hcg.2 o hf
        refine initData_sync (good_withFile hcg ?_ ?_) rfl h hr
        · refine ⟨by simp, ?_⟩
          intro y hy
          simp only [List.mem_append, List.mem_cons] at hy
          rcases hy with hy | hy | hy
          · exact g1.2 y (List.mem_of_mem_take hy)
          · subst hy; exact hb x rfl
          · exact g1.2 y (List.mem_of_mem_drop hy)
        · simp only [List.length_append, List.length_take, List.length_cons, List.length_drop]
          omega

theorem mapCols_spec {f : ColInfo → Res (FCol V)} {P : FCol V → Prop} (hf : ∀ i c, f i = ok c → P c) :
    ∀ {is : List ColInfo} {cs : List (FCol V)}, mapCols f is = ok cs → ∀ c ∈ cs, P c := by
  intro is
  induction is with
  | nil => intro cs h c hc; simp [mapCols] at h; subst h; simp at hc
  | cons i is ih =>
    intro cs h c hc
    unfold mapCols at h
    obtain ⟨x, hx, h⟩ := bind_eq_ok.mp h
    obtain ⟨xs, hxs, h⟩ := bind_eq_ok.mp h
    injection h with h; subst h
    rcases List.mem_cons.mp hc with rfl | hc
    · exact hf i _ hx
    · exact ih hxs c hc

theorem bintabCol_spec {i : ColInfo} {c : FCol V} (h : bintabCol i = ok c) : c.cells = [] := by
  unfold bintabCol at h
  split at h
  · simp at h
  · obtain ⟨t, ht, h⟩ := bind_eq_ok.mp h
    split at h
    · simp at h
    · injection h with h; subst h; rfl

theorem asctabCol_spec {i : ColInfo} {c : FCol V} (h : asctabCol i = ok c) :
    c.cells = [] ∧ c.rep = 1 ∧ i.type ≠ .string := by
  unfold asctabCol at h
  split at h
  · simp at h
  · split at h
    · simp at h
    · obtain ⟨t, ht, h⟩ := bind_eq_ok.mp h
      injection h with h; subst h
      refine ⟨rfl, rfl, ?_⟩
      intro e; rw [e] at ht; simp [type2asciiform] at ht

theorem insertBintab_sync {full : Bool} {s s' : St V} {cols : List ColInfo} {r : Res Unit} (hg : GoodSt s)
    (hs : Synced full s) (h : insertBintab cols s = (r, s')) (hr : full = true → r = ok ()) (hu : r.NoUB) :
    Synced full s' ∧ GoodSt s' := by
  refine insert_sync (b := (mapCols bintabCol cols) >>= fun fc => ok (.table true 0 fc)) hg hs ?_ ?_ hr hu
  · intro x hx
    obtain ⟨fc, h1, h2⟩ := bind_eq_ok.mp hx
    injection h2 with h2; subst h2
    intro c hc
    have := mapCols_spec (P := fun c => c.cells = []) (fun i c h => bintabCol_spec h) h1 c hc
    exact ⟨by rw [this]; simp, by simp⟩
  · rw [← h]
    unfold insertBintab
    rw [cleanData_bind, cleanData_bind]
    cases mapCols (bintabCol (V := V)) cols <;> rfl

theorem insertAsctab_sync {full : Bool} {s s' : St V} {cols : List ColInfo} {r : Res Unit} (hg : GoodSt s)
    (hs : Synced full s) (h : insertAsctab cols s = (r, s')) (hr : full = true → r = ok ()) (hu : r.NoUB) :
    Synced full s' ∧ GoodSt s' := by
  refine insert_sync (b := (mapCols asctabCol cols) >>= fun fc => ok (.table false 0 fc)) hg hs ?_ ?_ hr hu
  · intro x hx
    obtain ⟨fc, h1, h2⟩ := bind_eq_ok.mp hx
    injection h2 with h2; subst h2
    intro c hc
    have := mapCols_spec (P := fun c => c.cells = [] ∧ c.rep = 1)
      (fun i c h => ⟨(asctabCol_spec h).1, (asctabCol_spec h).2.1⟩) h1 c hc
    exact ⟨by rw [this.1]; simp, fun _ _ => this.2⟩
  · rw [← h]
    unfold insertAsctab
    rw [cleanData_bind, cleanData_bind]
    cases mapCols (asctabCol (V := V)) cols <;> rfl

theorem insertImage_sync {X : Ext V} {full : Bool} {s s' : St V} {t : PDT} {axes : List ℕ} {r : Res Unit} (hg : GoodSt s)
    (hs : Synced full s) (h : insertImage X t axes s = (r, s')) (hr : full = true → r = ok ()) (hu : r.NoUB) :
    Synced full s' ∧ GoodSt s' := by
  refine insert_sync (b := type2bitpix t >>= fun b => ok (.image b axes (List.replicate (prod axes) X.fill))) hg hs ?_ ?_ hr hu
  · intro x hx
    obtain ⟨fc, h1, h2⟩ := bind_eq_ok.mp hx
    injection h2 with h2; subst h2
    simp [GoodHdu]
  · rw [← h]
    unfold insertImage
    rw [cleanData_bind, cleanData_bind]
    cases type2bitpix t <;> rfl

/-! ## Changes of the current HDU -/

theorem setHdu_hdu {o : OpenFile V} (hc : o.cur < o.hdus.length) (h : Hdu V) : (o.setHdu h).hdu? = some h := by
  simp [OpenFile.hdu?, OpenFile.setHdu, hc]

theorem setHdu_good {o : OpenFile V} {h : Hdu V} (hg : GoodFile o.hdus) (hh : GoodHdu h) : GoodFile (o.setHdu h).hdus := by
  refine ⟨?_, ?_⟩
  · intro e
    have : o.hdus.length = 0 := by
      have := congrArg List.length e
      simpa [OpenFile.setHdu] using this
    exact hg.1 (List.eq_nil_of_length_eq_zero this)
  · intro x hx
    rcases List.mem_or_eq_of_mem_set hx with hx | rfl
    · exact hg.2 x hx
    · exact hh

/-- Replacing the current HDU by one with the same description. -/
theorem replace_sync {full : Bool} {s : St V} {o : OpenFile V} (hg : GoodSt s) (hs : Synced full s) (hf : s.fptr = some o)
    {h h' : Hdu V} {n : ℤ} (hh : o.hdu? = some h) (hgood : GoodHdu h') (hk : Knows full s h → Knows full { s with nrows := n } h')  :
    Synced full { s with fptr := some (o.setHdu h'), nrows := n } ∧ GoodSt { s with fptr := some (o.setHdu h'), nrows := n } := by
  obtain ⟨g1, g2⟩ := hg.2 o hf
  refine ⟨?_, hg.1, ?_⟩
  · unfold Synced at hs ⊢
    rw [hf] at hs
    simp only at hs ⊢
    rcases hs with hs | ⟨x, hx, hk'⟩
    · exact Or.inl hs
    · rw [hh] at hx; injection hx with hx; subst hx
      exact Or.inr ⟨h', setHdu_hdu g2 h', hk hk'⟩
  · intro o' ho'
    injection ho' with ho'; subst ho'
    exact ⟨setHdu_good g1 hgood, by simpa [OpenFile.setHdu] using g2⟩

theorem good_cur {s : St V} (hg : GoodSt s) {o : OpenFile V} (hf : s.fptr = some o) {h : Hdu V} (hh : o.hdu? = some h) :
    GoodHdu h := (hg.2 o hf).1.2 h (List.mem_of_getElem? hh)

theorem setKey_sync {full : Bool} {s s' : St V} {n : String} {v : V} {t : PDT} {r : Res Unit} (hg : GoodSt s)
    (hs : Synced full s) (h : setKey n v t s = (r, s')) : Synced full s' ∧ GoodSt s' := by
  unfold setKey at h
  rw [get_bind, req_bind] at h
  split at h
  · split at h
    · rw [file_bind] at h
      cases hf : s.fptr with
      | none => rw [hf] at h; injection h with e1 e2; subst e2; exact ⟨hs, hg⟩
      | some o =>
        rw [hf] at h
        simp only at h
        cases hh : o.hdu? with
        | none => rw [hh] at h; injection h with e1 e2; subst e2; exact ⟨hs, hg⟩
        | some hd =>
          rw [hh] at h
          simp only at h
          split at h
          · rw [setFile_run] at h
            injection h with e1 e2; subst e2
            exact replace_sync (n := s.nrows) hg hs hf hh (h' := { hd with keys := _ }) (by have g := good_cur hg hf hh; exact g) (fun hk => hk)
          · injection h with e1 e2; subst e2; exact ⟨hs, hg⟩
    · injection h with e1 e2; subst e2; exact ⟨hs, hg⟩
  · injection h with e1 e2; subst e2; exact ⟨hs, hg⟩

theorem deleteKey_sync {full : Bool} {s s' : St V} {n : String} {r : Res Unit} (hg : GoodSt s)
    (hs : Synced full s) (h : deleteKey n s = (r, s')) : Synced full s' ∧ GoodSt s' := by
  unfold deleteKey at h
  rw [get_bind, req_bind] at h
  split at h
  · rw [file_bind] at h
    cases hf : s.fptr with
    | none => rw [hf] at h; injection h with e1 e2; subst e2; exact ⟨hs, hg⟩
    | some o =>
      rw [hf] at h
      simp only at h
      cases hh : o.hdu? with
      | none => rw [hh] at h; injection h with e1 e2; subst e2; exact ⟨hs, hg⟩
      | some hd =>
        rw [hh] at h
        simp only at h
        split at h
        · rw [setFile_run] at h
          injection h with e1 e2; subst e2
          exact replace_sync (n := s.nrows) hg hs hf hh (h' := { hd with keys := _ }) (by have g := good_cur hg hf hh; exact g) (fun hk => hk)
        · injection h with e1 e2; subst e2; exact ⟨hs, hg⟩
  · injection h with e1 e2; subst e2; exact ⟨hs, hg⟩

theorem cfWriteImg_ok {o o' : OpenFile V} {first : ℤ} {ys : List V} (h : cfWriteImg o first ys = ok o') :
    o' = o ∨ ∃ b ax pix pix' keys, o.hdu? = some ⟨.image b ax pix, keys⟩ ∧ o' = o.setHdu ⟨.image b ax pix', keys⟩ ∧
      pix'.length = pix.length := by
  unfold cfWriteImg at h
  split at h
  · rename_i b ax pix keys hh
    split at h
    · simp at h
    · split at h
      · injection h with h; exact Or.inl h.symm
      · split at h
        · simp at h
        · split at h
          · rename_i h1 h2 h3 h4
            injection h with h
            refine Or.inr ⟨b, ax, pix, _, keys, hh, h.symm, ?_⟩
            simp only [List.length_append, List.length_take, List.length_drop]
            omega
          · simp at h
  · simp at h

theorem writeImg_sync {full : Bool} {s : St V} {o o' : OpenFile V} {first : ℤ} {ys : List V} (hg : GoodSt s)
    (hs : Synced full s) (hf : s.fptr = some o) (h : cfWriteImg o first ys = ok o') :
    Synced full { s with fptr := some o' } ∧ GoodSt { s with fptr := some o' } := by
  rcases cfWriteImg_ok h with rfl | ⟨b, ax, pix, pix', keys, hh, rfl, hl⟩
  · have : { s with fptr := some o' } = s := by rw [← hf]
    rw [this]; exact ⟨hs, hg⟩
  · have hgc := good_cur hg hf hh
    refine replace_sync (n := s.nrows) hg hs hf hh (by simpa [GoodHdu, hl] using hgc) (fun hk => hk)

theorem writeImage2_sync {full : Bool} {s s' : St V} {ys : List V} {t : PDT} {s1 s2 : ℕ} {r : Res Unit} (hg : GoodSt s)
    (hs : Synced full s) (h : writeImage2 ys t s1 s2 s = (r, s')) : Synced full s' ∧ GoodSt s' := by
  unfold writeImage2 at h
  rw [get_bind, req_bind] at h
  split at h
  · rcases ha : s.axes with _ | ⟨a, _ | ⟨b, _ | ⟨c, l⟩⟩⟩
    · rw [ha] at h; injection h with e1 e2; subst e2; exact ⟨hs, hg⟩
    · rw [ha] at h; injection h with e1 e2; subst e2; exact ⟨hs, hg⟩
    · rw [ha] at h
      simp only [req_bind] at h
      split at h
      · split at h
        · cases ht : type2ftc t with
          | throw m => rw [ht, lift_throw_bind] at h; injection h with e1 e2; subst e2; exact ⟨hs, hg⟩
          | ub m => rw [ht, lift_ub_bind] at h; injection h with e1 e2; subst e2; exact ⟨hs, hg⟩
          | ok c =>
            rw [ht, lift_ok_bind, file_bind] at h
            cases hf : s.fptr with
            | none => rw [hf] at h; injection h with e1 e2; subst e2; exact ⟨hs, hg⟩
            | some o =>
              rw [hf] at h
              simp only at h
              cases hw : cfWriteImg o 1 (ys.take (a * b)) with
              | throw m => rw [hw, lift_throw_bind] at h; injection h with e1 e2; subst e2; exact ⟨hs, hg⟩
              | ub m => rw [hw, lift_ub_bind] at h; injection h with e1 e2; subst e2; exact ⟨hs, hg⟩
              | ok o' =>
                rw [hw, lift_ok_bind, setFile_run] at h
                injection h with e1 e2; subst e2
                exact writeImg_sync hg hs hf hw
        · injection h with e1 e2; subst e2; exact ⟨hs, hg⟩
      · injection h with e1 e2; subst e2; exact ⟨hs, hg⟩
    · rw [ha] at h; injection h with e1 e2; subst e2; exact ⟨hs, hg⟩
  · injection h with e1 e2; subst e2; exact ⟨hs, hg⟩

theorem writeSubimage_sync {full : Bool} {s s' : St V} {ys : List V} {t : PDT} {off : ℤ} {r : Res Unit} (hg : GoodSt s)
    (hs : Synced full s) (h : writeSubimage ys t off s = (r, s')) : Synced full s' ∧ GoodSt s' := by
  unfold writeSubimage at h
  rw [get_bind, req_bind] at h
  split at h
  · cases ht : type2ftc t with
    | throw m => rw [ht, lift_throw_bind] at h; injection h with e1 e2; subst e2; exact ⟨hs, hg⟩
    | ub m => rw [ht, lift_ub_bind] at h; injection h with e1 e2; subst e2; exact ⟨hs, hg⟩
    | ok c =>
      rw [ht, lift_ok_bind, file_bind] at h
      cases hf : s.fptr with
      | none => rw [hf] at h; injection h with e1 e2; subst e2; exact ⟨hs, hg⟩
      | some o =>
        rw [hf] at h
        simp only at h
        cases hw : cfWriteImg o (1 + off) ys with
        | throw m => rw [hw, lift_throw_bind] at h; injection h with e1 e2; subst e2; exact ⟨hs, hg⟩
        | ub m => rw [hw, lift_ub_bind] at h; injection h with e1 e2; subst e2; exact ⟨hs, hg⟩
        | ok o' =>
          rw [hw, lift_ok_bind, setFile_run] at h
          injection h with e1 e2; subst e2
          exact writeImg_sync hg hs hf hw
  · injection h with e1 e2; subst e2; exact ⟨hs, hg⟩

/-! ## Writing a column -/

theorem overwrite_length (fill : V) (xs : List V) (k : ℕ) (ys : List V) :
    (overwrite fill xs k ys).length = max xs.length (k + ys.length) := by
  unfold overwrite
  simp only [List.length_append, List.length_take, List.length_drop, List.length_replicate]
  omega

/-- What a successful write of at least one element does to the file. -/
theorem cfWriteCol_ok {fill : V} {o o' : OpenFile V} {str : Bool} {col frow felem : ℤ} {ys : List V} (hy : ys ≠ [])
    (h : cfWriteCol fill o str col frow felem ys = ok o') :
    ∃ b n cols keys c, o.hdu? = some ⟨.table b n cols, keys⟩ ∧ cols[(col - 1).toNat]? = some c ∧
      (str = true ↔ c.ftc = .string) ∧ 1 ≤ frow ∧ 1 ≤ felem ∧ felem ≤ c.per ∧ o.rw = true ∧
      o' = o.setHdu ⟨.table b (max n ((((frow - 1) * c.per + (felem - 1)).toNat + ys.length + c.per - 1) / c.per))
        ((cols.map (FCol.extend fill
            (max n ((((frow - 1) * c.per + (felem - 1)).toNat + ys.length + c.per - 1) / c.per)))).modify (col - 1).toNat
          (fun c' => { c' with cells := overwrite fill c'.cells ((frow - 1) * c.per + (felem - 1)).toNat ys })), keys⟩ := by
  unfold cfWriteCol at h
  split at h
  · rename_i b n cols keys hh
    split at h
    · rename_i c hc
      split at h
      · simp at h
      · split at h
        · rename_i h1; exact absurd (List.eq_nil_of_length_eq_zero h1) hy
        · split at h
          · simp at h
          · split at h
            · simp at h
            · rename_i h0 _ h1 h2
              injection h with h
              refine ⟨b, n, cols, keys, c, hh, hc, ?_, by omega, by omega, by omega, by simpa using h0, h.symm⟩
              have := not_not.mp h1
              rw [this]; simp
    · simp at h
  · simp at h

theorem getElem?_written {fill : V} {cols : List (FCol V)} {rows k j : ℕ} {f : FCol V → FCol V} {c : FCol V}
    (h : ((cols.map (FCol.extend fill rows)).modify k f)[j]? = some c) :
    ∃ c₀, cols[j]? = some c₀ ∧ c = if k = j then f (c₀.extend fill rows) else c₀.extend fill rows := by
  rw [List.getElem?_modify, List.getElem?_map] at h
  cases hc : cols[j]? with
  | none => rw [hc] at h; simp at h
  | some c₀ =>
    rw [hc] at h
    refine ⟨c₀, rfl, ?_⟩
    by_cases hk : k = j
    · simp [hk] at h ⊢; exact h.symm
    · simp [hk] at h ⊢; exact h.symm

theorem extend_per (fill : V) (n : ℕ) (c : FCol V) : (c.extend fill n).per = c.per := rfl
theorem extend_len (fill : V) {n m : ℕ} {c : FCol V} (h : c.cells.length = m * c.per) (hm : m ≤ n) :
    (c.extend fill n).cells.length = n * c.per := by
  unfold FCol.extend
  simp only [List.length_append, List.length_replicate, h]
  have := Nat.mul_le_mul_right c.per hm
  omega

theorem ceil_ge (a p : ℕ) (hp : 0 < p) : a ≤ (a + p - 1) / p * p := by
  have := Nat.div_add_mod (a + p - 1) p
  have h2 := Nat.mod_lt (a + p - 1) hp
  rw [Nat.mul_comm] at this
  omega

/-- The written table is well-formed. -/
theorem written_good {fill : V} {b : Bool} {n : ℕ} {cols : List (FCol V)} {keys : String → Option V} {k start : ℕ} {ys : List V}
    {c : FCol V} (hg : GoodHdu ⟨.table b n cols, keys⟩) (hc : cols[k]? = some c) (hp : 0 < c.per) :
    GoodHdu ⟨.table b (max n ((start + ys.length + c.per - 1) / c.per))
      ((cols.map (FCol.extend fill (max n ((start + ys.length + c.per - 1) / c.per)))).modify k
        (fun c' => { c' with cells := overwrite fill c'.cells start ys })), keys⟩ := by
  intro x hx
  obtain ⟨j, hj⟩ := List.mem_iff_getElem?.mp hx
  obtain ⟨c₀, hc₀, rfl⟩ := getElem?_written hj
  have hg₀ := hg c₀ (List.mem_of_getElem? hc₀)
  have hl := extend_len fill hg₀.1 (Nat.le_max_left n ((start + ys.length + c.per - 1) / c.per))
  by_cases hk : k = j
  · subst hk
    rw [hc] at hc₀; injection hc₀ with e; subst e
    rw [if_pos rfl]
    refine ⟨?_, hg₀.2⟩
    show (overwrite fill _ start ys).length = _ * c.per
    rw [overwrite_length, hl]
    have h1 := ceil_ge (start + ys.length) c.per hp
    have h2 := Nat.mul_le_mul_right c.per (Nat.le_max_right n ((start + ys.length + c.per - 1) / c.per))
    omega
  · rw [if_neg hk]
    exact ⟨hl, hg₀.2⟩

theorem describes_written {fill : V} {b : Bool} {cols : List (FCol V)} {rows k : ℕ} {start : ℕ} {ys : List V} {s : St V}
    (h : ∀ (j : ℕ) (i : ColInfo), s.cols[j]? = some i → ∃ c, cols[j]? = some c ∧ Describes b c i) :
    ∀ (j : ℕ) (i : ColInfo), s.cols[j]? = some i →
      ∃ c, ((cols.map (FCol.extend fill rows)).modify k (fun c' => { c' with cells := overwrite fill c'.cells start ys }))[j]? = some c ∧
        Describes b c i := by
  intro j i hi
  obtain ⟨c, hc, hd⟩ := h j i hi
  rw [List.getElem?_modify, List.getElem?_map, hc]
  by_cases hk : k = j
  · simp only [hk, if_true, Option.map_some]
    exact ⟨_, rfl, hd⟩
  · simp only [hk, if_false, Option.map_some]
    exact ⟨_, rfl, hd⟩

/-- Numbers written to a column with one element per row, or strings: the row count kept by the handle is right. -/
theorem finish_sync {X : Ext V} {full : Bool} {s s' : St V} {str : Bool} {col frow felem upto : ℤ} {ys : List V}
    (hg : GoodSt s) (hs : Synced full s) (hy : ys ≠ [])
    (hper : ∀ o b n cols keys c, s.fptr = some o → o.hdu? = some ⟨.table b n cols, keys⟩ → cols[(col - 1).toNat]? = some c →
      (str = true ↔ c.ftc = .string) → c.per = 1)
    (hu : upto = frow - 1 + (felem - 1) + ys.length)
    (h : finishWrite (fun o => cfWriteCol X.fill o str col frow felem ys) upto s = (ok (), s')) :
    Synced full s' ∧ GoodSt s' := by
  unfold finishWrite at h
  rw [file_bind] at h
  cases hf : s.fptr with
  | none => rw [hf] at h; simp at h
  | some o =>
    rw [hf] at h
    simp only at h
    cases hw : cfWriteCol X.fill o str col frow felem ys with
    | throw m => rw [hw] at h; simp [modify_bind, lift_run] at h
    | ub m => rw [hw] at h; simp [lift_run] at h
    | ok o' =>
      rw [hw] at h
      simp only [setFile_bind, modify_run] at h
      injection h with _ h; subst h
      obtain ⟨b, n, cols, keys, c, hh, hc, hstr, h1, h2, h3, h4, rfl⟩ := cfWriteCol_ok hy hw
      have hp := hper o b n cols keys c hf hh hc hstr
      have hgc := good_cur hg hf hh
      refine replace_sync hg hs hf hh (written_good hgc hc (by omega)) ?_
      rintro ⟨k1, k2, k3, k4⟩
      refine ⟨(by cases b <;> exact k1), ?_, describes_written k3, fun hfull => by rw [List.length_modify, List.length_map]; exact k4 hfull⟩
      show max s.nrows upto = _
      rw [k2, hu, hp]
      have : (((frow - 1) * ((1 : ℕ) : ℤ) + (felem - 1)).toNat + ys.length + 1 - 1) / 1 =
          (frow - 1 + (felem - 1)).toNat + ys.length := by
        rw [Nat.div_one, Nat.cast_one, mul_one]; omega
      rw [this, Nat.cast_max]
      congr 1
      push_cast
      omega

theorem colAt_ok {s : St V} {i : ℤ} {c : ColInfo} (h : colAt s i = ok c) : 1 ≤ i ∧ s.cols[(i - 1).toNat]? = some c := by
  unfold colAt rd at h
  split at h
  · rename_i hh
    injection h with h
    exact ⟨by omega, by rw [List.getElem?_eq_getElem hh.2, h]⟩
  · simp at h

theorem colAt_tableHdu {s : St V} {i : ℤ} (h : tableHdu s i = true) : ∃ c, colAt s i = ok c := by
  unfold tableHdu at h
  simp only [decide_eq_true_eq] at h
  unfold colAt
  exact ⟨_, rd_ok (by omega) (by omega)⟩

/-- The column of the file a column number stands for. -/
theorem synced_col {full : Bool} {s : St V} (hs : Synced full s) {col : ℤ} {i : ColInfo} (hi : colAt s col = ok i) :
    ∃ o b n cols keys c, s.fptr = some o ∧ o.hdu? = some ⟨.table b n cols, keys⟩ ∧ s.nrows = n ∧
      cols[(col - 1).toNat]? = some c ∧ Describes b c i := by
  have hc := (colAt_ok hi).2
  unfold Synced at hs
  cases hf : s.fptr with
  | none => rw [hf] at hs; rw [hs.2.1] at hc; simp at hc
  | some o =>
    rw [hf] at hs
    rcases hs with hs | ⟨h, hh, hk⟩
    · rw [hs.2.2.1] at hc; simp at hc
    · obtain ⟨body, keys⟩ := h
      cases body with
      | image b ax pix => rw [hk.2.2] at hc; simp at hc
      | other => rw [hk.2] at hc; simp at hc
      | table b n cols =>
        obtain ⟨c, hc', hd⟩ := hk.2.2.1 _ _ hc
        exact ⟨o, b, n, cols, keys, c, rfl, hh, hk.2.1, hc', hd⟩

theorem writeColumn_sync {X : Ext V} {cut : ℤ → V → V} {full : Bool} {s s' : St V} {col : ℤ} {ys : List V} {t : PDT} {off : ℤ}
    (hg : GoodSt s) (hs : Synced full s) (hy : ys ≠ [])
    (ht : t = .string ∨ ∀ i, colAt s col = ok i → i.repcount = 1) (h : writeColumn X cut col ys t off s = (ok (), s')) :
    Synced full s' ∧ GoodSt s' := by
  unfold writeColumn at h
  split at h
  · unfold writeStrCol at h
    rw [get_bind, req_bind] at h
    split at h
    · rename_i htab
      obtain ⟨i, hi⟩ := colAt_tableHdu htab
      rw [hi, lift_ok_bind, req_bind] at h
      split at h
      · refine finish_sync hg hs (by simpa using hy) ?_ (by simp) h
        intro o b n cols keys c _ _ _ hstr
        unfold FCol.per
        rw [if_pos (hstr.mp rfl)]
      · simp at h
    · simp at h
  · rename_i hts
    split at h
    · unfold writeCol at h
      rw [get_bind, req_bind] at h
      split at h
      · rename_i htab
        obtain ⟨i, hi⟩ := colAt_tableHdu htab
        have hone := (ht.resolve_left hts) i hi
        rw [hi, lift_ok_bind, hone] at h
        simp only [one_ne_zero, if_false, Int.tdiv_one, Int.tmod_one] at h
        cases hft : type2ftc t with
        | throw m => rw [hft, lift_throw_bind] at h; simp at h
        | ub m => rw [hft, lift_ub_bind] at h; simp at h
        | ok x =>
          rw [hft, lift_ok_bind] at h
          refine finish_sync hg hs hy ?_ (by ring) h
          intro o b n cols keys c hf hh hc hstr
          obtain ⟨o', b', n', cols', keys', c', hf', hh', _, hc', hd⟩ := synced_col hs hi
          rw [hf] at hf'; injection hf' with e; subst e
          rw [hh] at hh'; injection hh' with e; injection e with e1 e2
          injection e1 with e3 e4 e5
          subst e3; subst e4; subst e5
          rw [hc] at hc'; injection hc' with e; subst e
          have hns : c.ftc ≠ .string := fun e => by simpa using hstr.mpr e
          unfold FCol.per
          rw [if_neg hns]
          have hrep := hd.2.2.1
          rw [hone] at hrep
          cases b with
          | true => simpa using hrep.symm
          | false => exact (good_cur hg hf hh c (List.mem_of_getElem? hc)).2 rfl hns
      · simp at h
    · simp [lift_run] at h

/-! ## Histories -/

/-- One call. -/
theorem call_sync {X : Ext V} {cut : ℤ → V → V} {full : Bool} {s s' : St V} {op : Op V} {r : Res Unit}
    (hg : GoodSt s) (hs : Synced full s) (h : call X cut op s = (r, s')) (hu : r.NoUB) (hr : full = true → r = ok ())
    (ht : Tame s op r) : Synced full s' ∧ GoodSt s' := by
  cases op with
  | openF f => exact openFile_sync hg hs h hr
  | createF f => exact create_sync hg hs h hr
  | close =>
    change cleanAll s = _ at h
    rw [cleanAll_run] at h
    injection h with _ h; subst h
    exact ⟨synced_silent (closed_silent hs) (Or.inl (closed_fptr s)), closed_good hg⟩
  | goto k => exact gotoHdu_sync hg hs h ht
  | bintab cols => exact insertBintab_sync hg hs h hr hu
  | asctab cols => exact insertAsctab_sync hg hs h hr hu
  | image t axes => exact insertImage_sync hg hs h hr hu
  | write col ys t off =>
    obtain ⟨h1, h2, h3⟩ := ht
    subst h1
    exact writeColumn_sync hg hs h2 h3 h
  | setKey n v t => exact setKey_sync hg hs h
  | delKey n => exact deleteKey_sync hg hs h
  | writeImg ys t s1 s2 => exact writeImage2_sync hg hs h
  | writeSub ys t off => exact writeSubimage_sync hg hs h

theorem fresh_good {disk : String → Option (List (Hdu V))} (hd : ∀ f hs, disk f = some hs → GoodFile hs) :
    GoodSt (fresh disk) := ⟨hd, fun o h => by simp [fresh] at h⟩

theorem fresh_synced (full : Bool) (disk : String → Option (List (Hdu V))) : Synced full (fresh disk) :=
  ⟨rfl, rfl, rfl⟩

theorem hist_sync {X : Ext V} {cut : ℤ → V → V} {full : Bool} {s s' : St V} (h : Hist X cut full s s') (hg : GoodSt s)
    (hs : Synced full s) : Synced full s' ∧ GoodSt s' := by
  induction h with
  | nil => exact ⟨hs, hg⟩
  | snoc _ h1 h2 h3 h4 ih => exact call_sync ih.2 ih.1 h1 h2 h3 h4

end Verif.Fh
